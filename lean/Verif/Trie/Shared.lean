import Verif.Trie.StoreProof
import Verif.Conc.Peek
import Verif.Conc.RW

/-!
# C148: one trie used by several goroutines (`/repo/trie/trie.go`)

The trie is the stored trie of `Verif.Trie.Store` with its storage.  `Get`, `Put`, `Delete`, `HashValue`, `Commit`, `GetProof` and
`GetExistenceProof` lock the mutex of the trie; `Count`, `IsEmpty` and `Collapse` do not.  Under the lock the change of the nodes is one
step and the change of the counter another one: `Count` is the only call of the theorems that can come between them.  Reading and writing
the counter are taken to be atomic (the Go memory model promises nothing for such a race).  The storage does not fail and belongs to
the trie alone.
-/

namespace Verif.Trie.Shared
open Verif Verif.Conc Verif.Merkle Verif.Trie Verif.Trie.Store Verif.Trie.StoreProof

variable {V : Type}

/-! ### The calls -/

/-- The calls. -/
inductive Call (V : Type) where
  | get (key : Bytes)
  | put (key : Bytes) (x : V)
  | del (key : Bytes)
  | hash
  | commit
  | proof (key : Bytes)
  | existence (key : Bytes)
  | count

/-- Their results. -/
inductive Ans (V : Type) where
  | out (o : POut V)
  | count (n : Int)

/-- The call of a single goroutine that a locked call makes. -/
def Call.op (L : Limits) : Call V → Option (POp V)
  | .get k => some (.call (.get k))
  | .put k x => some (.call (.put k x))
  | .del k => some (.call (.del k))
  | .hash => some (.call .hash)
  | .commit => some (.call (.commit L))
  | .proof k => some (.proof k)
  | .existence k => some (.existence k)
  | .count => none

/-- The session with another counter. -/
def recount (s : Sess V) (n : Int) : Sess V := { s with t := { s.t with count := n } }

/-- What is done under the lock: `Get`, `Put`, `Delete`, `HashValue`, `Commit`, `GetProof`, `GetExistenceProof`
(`/repo/trie/trie.go:252-257, 340-345, 455-459, 232-237, 639-644, 855-860, 893-898`). -/
def body (E : Env V) (L : Limits) : Call V → Prog (Sess V) (Ans V)
  | .put k x => .step (fun s => recount (sstep E noFaults s (.put k x)).1 s.t.count) fun s =>
      .step (fun s' => recount s' (sstep E noFaults s (.put k x)).1.t.count) fun _ => .ret (.out (.out (sstep E noFaults s (.put k x)).2))
  | .del k => .step (fun s => recount (sstep E noFaults s (.del k)).1 s.t.count) fun s =>
      .step (fun s' => recount s' (sstep E noFaults s (.del k)).1.t.count) fun _ => .ret (.out (.out (sstep E noFaults s (.del k)).2))
  | .get k => .step (fun s => (pstep E noFaults s (.call (.get k))).1) fun s => .ret (.out (pstep E noFaults s (.call (.get k))).2)
  | .hash => .step (fun s => (pstep E noFaults s (.call .hash)).1) fun s => .ret (.out (pstep E noFaults s (.call .hash)).2)
  | .commit => .step (fun s => (pstep E noFaults s (.call (.commit L))).1) fun s => .ret (.out (pstep E noFaults s (.call (.commit L))).2)
  | .proof k => .step (fun s => (pstep E noFaults s (.proof k)).1) fun s => .ret (.out (pstep E noFaults s (.proof k)).2)
  | .existence k => .step (fun s => (pstep E noFaults s (.existence k)).1) fun s => .ret (.out (pstep E noFaults s (.existence k)).2)
  | .count => .step id fun s => .ret (.count s.t.count)

/-- The counter. -/
def counter (s : Sess V) : Int := s.t.count

/-- `Count` (`/repo/trie/trie.go:224-226`) reads the counter and takes no lock. -/
def look : Call V → Option (Int → Ans V)
  | .count => some .count
  | _ => none

/-- The code of the calls. -/
def code (E : Env V) (L : Limits) : Call V → Code (Sess V) (Ans V) := peeking counter look (body E L)

/-! ### Specification: a map -/

/-- The change of the contents a call makes. -/
def Call.change : Call V → Option (Op V)
  | .put k x => some (.put k x)
  | .del k => some (.del k)
  | _ => none

/-- The key of a call. -/
def Call.key : Call V → Option Bytes
  | .get k => some k
  | .put k _ => some k
  | .del k => some k
  | .proof k => some k
  | .existence k => some k
  | _ => none

/-- The root hash of the contents. -/
def rootOf (E : Env V) (h : List (Op V)) : Bytes := (newTrie.run h).hash E.H E.R E.vh

/-- What a map that has been changed by `h` may answer. -/
def Right (E : Env V) (h : List (Op V)) : Call V → Ans V → Prop
  | .get k, r => r = .out (.out (.value (spec h k)))
  | .put _ _, r => r = .out (.out (.changed true))
  | .del k, r => r = .out (.out (.deleted (spec h k).isSome (spec h k)))
  | .hash, r => r = .out (.out (.root (rootOf E h)))
  | .commit, r => r = .out (.out (.done true))
  | .proof k, r => match spec h k with
    | none => r = .out (.proof none)
    | some x => ∃ c, r = .out (.proof (some (x, c))) ∧ verifyProofChain E.H E.R (E.vh x) c (rootOf E h) = true
  | .existence k, r => k ≠ [] → ∃ c, r = .out (.existence (some ((spec h k).isSome, c))) ∧ existenceHash E.H E.R c = some (rootOf E h) ∧
      exist c (keyToPrefix k) = some ((spec h k).map E.vh)
  | .count, r => ∃ n : Nat, r = .count n ∧ Holds (spec h) n

/-- A whole call on the map. -/
def serves (E : Env V) (o : Call V) (h h' : List (Op V)) (r : Ans V) : Prop := h' = h ++ o.change.toList ∧ Right E h o r

/-- The changes made by the calls of an order. -/
def changed (log : List (Nat × Call V × Ans V)) : List (Op V) := log.filterMap fun e => e.2.1.change

/-- The trees on the way. -/
def passed (log : List (Nat × Call V × Ans V)) : Node V → Prop := fun a => ∃ pre, pre <+: log ∧ a = (newTrie.run (changed pre)).root

/-! ### Proofs -/

variable {E : Env V} {L : Limits}

theorem op_change {o : Call V} {p : POp V} (h : o.op L = some p) : p.change = o.change := by
  cases o <;> simp only [Call.op, Option.some.injEq, reduceCtorEq] at h <;> subst h <;> rfl

theorem look_none {o : Call V} (h : look o = none) : ∃ p, o.op L = some p := by
  cases o <;> first | exact ⟨_, rfl⟩ | simp [look] at h

theorem body_run {o : Call V} {p : POp V} (h : o.op L = some p) (s : Sess V) :
    (body E L o).run s = ((pstep E noFaults s p).1, .out (pstep E noFaults s p).2) := by
  cases o <;> simp only [Call.op, Option.some.injEq, reduceCtorEq] at h <;> subst h <;> rfl

theorem body_once (o : Call V) (s : Sess V) : Once counter (body E L o) s := by
  cases o <;> first | exact .inr rfl | exact .inl ⟨rfl, .inr rfl⟩

theorem hash_count (t : BTrie V) : (t.hash E).1.count = t.count := rfl

/-- Only changes of the contents touch the counter, and as in a trie that is only kept in memory. -/
theorem count_step (hE : E.Lawful) {h : List (Op V)} {s : Sess V} (hs : SInv E s h) (hc : s.t.count = (newTrie.run h).count)
    {o : Call V} {p : POp V} (hp : o.op L = some p) :
    (pstep E noFaults s p).1.t.count = (newTrie.run (h ++ o.change.toList)).count := by
  have hw := wf_run h
  cases o <;> simp only [Call.op, Option.some.injEq, reduceCtorEq] at hp <;> subst hp <;>
    simp only [Call.change, Option.toList, List.append_nil]
  case put k x =>
    obtain ⟨-, h2, -⟩ := put_step hE hs.rep hw k x
    rw [run_concat]
    show (s.t.put E s.D k x).1.count = _
    rw [h2, hc]
    rfl
  case del k =>
    obtain ⟨t', h1, h2, -, -⟩ := del_step hE hs.rep hw k
    rw [run_concat]
    show (sstep E noFaults s (.del k)).1.t.count = _
    rw [sstep, h1]
    show t'.count = _
    rw [h2, hc]
    rfl
  case get k => exact hc
  case hash => exact hc
  case commit => exact hc
  case proof k =>
    rw [← hc]
    show (getProof E s.D s.t k).1.count = _
    rw [getProof]
    split <;> rfl
  case existence k =>
    rw [← hc]
    show (getExistence E s.D s.t k).1.count = _
    rw [getExistence]

/-- What a trie that is only kept in memory answers is right. -/
theorem right_of (hE : E.Lawful) {K : Bytes → Prop} (hK : PrefixFree K) {h : List (Op V)} (hh : ∀ op ∈ h, K op.key) {o : Call V}
    (ho : ∀ k, o.key = some k → K k) {p : POp V} (hp : o.op L = some p) : Right E h o (.out (panswer E (newTrie.run h) p)) := by
  have hinv := Inv.of_prefixFree hK h hh
  have hclear : ∀ k, K k → Clear (spec h) k := fun k hk => clear_of_prefixFree hK h hh hk
  cases o <;> simp only [Call.op, Option.some.injEq, reduceCtorEq] at hp <;> subst hp
  case get k =>
    rw [panswer, answerT_clear hinv (.get k) (by rintro k' ⟨⟩; exact hclear k (ho k rfl))]
    exact rfl
  case put k x =>
    rw [panswer, answerT_clear hinv (.put k x) (by rintro k' ⟨⟩; exact hclear k (ho k rfl))]
    exact rfl
  case del k =>
    rw [panswer, answerT_clear hinv (.del k) (by rintro k' ⟨⟩; exact hclear k (ho k rfl))]
    exact rfl
  case hash => exact rfl
  case commit => exact rfl
  case proof k =>
    have hget : ((newTrie (V := V)).run h).get k = spec h k := C01_get K hK h hh k (ho k rfl)
    rw [Right, panswer]
    cases hx : spec h k with
    | none =>
      rw [hx] at hget
      simp only
      rw [MTrie.getProof, hget]
      rfl
    | some x =>
      rw [hx] at hget
      obtain ⟨c, h1, -, h3⟩ := C09_proof_verifies E.H hE.hH E.R E.vh hE.hv _ k x hget
      exact ⟨c, by rw [h1], h3⟩
  case existence k =>
    intro hne
    obtain ⟨h1, h2, h3, -⟩ := C10_existence_complete E.H hE.hH E.R E.vh hE.hv K hK h hh k (ho k rfl) hne
    exact ⟨_, by rw [panswer, ← h1], h2, h3⟩

theorem changed_snoc (log : List (Nat × Call V × Ans V)) (e : Nat × Call V × Ans V) :
    changed (log ++ [e]) = changed log ++ e.2.1.change.toList := by
  rw [changed, List.filterMap_append]
  cases h : e.2.1.change <;> simp [changed, h]

theorem passed_mono {log : List (Nat × Call V × Ans V)} {e : Nat × Call V × Ans V} {a : Node V} (h : passed log a) : passed (log ++ [e]) a := by
  obtain ⟨pre, h1, h2⟩ := h
  exact ⟨pre, h1.trans (List.prefix_append _ _), h2⟩

theorem change_key {o : Call V} {op : Op V} (h : op ∈ o.change.toList) : o.key = some op.key := by
  cases o <;> simp only [Call.change, Option.toList, List.mem_singleton, List.not_mem_nil] at h <;> subst h <;> rfl

/-- An order of whole calls on the stored trie is one on the map. -/
theorem replays_map (hE : E.Lawful) {K : Bytes → Prop} (hK : PrefixFree K) {D : Disk} (hD : D.ok) {T : Node V → Prop} (hA : Apart E T)
    {log : List (Nat × Call V × Ans V)} {s : Sess V} (h : Replays (atOnce counter look (body E L)) ⟨openTrie none, D⟩ log s) :
    (∀ a, passed log a → T a) → (∀ e ∈ log, ∀ k, e.2.1.key = some k → K k) →
    Explains (serves E) [] log (changed log) ∧ SInv E s (changed log) ∧ s.t.count = (newTrie.run (changed log)).count ∧
      ∀ op ∈ changed log, K op.key := by
  generalize hs0 : (⟨openTrie none, D⟩ : Sess V) = s0 at h
  induction h with
  | nil =>
    subst hs0
    intro _ _
    exact ⟨.nil _, start_inv hD, rfl, by simp [changed]⟩
  | @snoc log s' t o h1 ih =>
    subst hs0
    intro hT hk
    obtain ⟨i1, i2, i3, i4⟩ := ih (fun a ha => hT a (passed_mono ha)) fun e he => hk e (List.mem_append_left _ he)
    have hko : ∀ k, o.key = some k → K k := hk (t, o, _) (List.mem_append_right _ (List.mem_singleton.2 rfl))
    rw [changed_snoc]
    have hkeys : ∀ op ∈ changed log ++ o.change.toList, K op.key := by
      intro op hop
      rcases List.mem_append.1 hop with hop | hop
      · exact i4 op hop
      · exact hko _ (change_key hop)
    cases hl : look o with
    | none =>
      obtain ⟨p, hp⟩ := look_none (L := L) hl
      have hrun : (atOnce counter look (body E L) o).run s' = ((pstep E noFaults s' p).1, .out (pstep E noFaults s' p).2) := by
        rw [atOnce, hl]; exact body_run hp s'
      rw [hrun]
      obtain ⟨h2, h3⟩ := pstep_spec hE hA i2 p (hT _ ⟨log, List.prefix_append _ _, rfl⟩)
      rw [op_change hp] at h3
      refine ⟨.snoc t o _ i1 ⟨rfl, ?_⟩, h3, count_step hE i2 i3 hp, hkeys⟩
      simp only [h2]
      exact right_of hE hK i4 hko hp
    | some f =>
      have ho : o = .count := by cases o <;> simp [look] at hl <;> rfl
      subst ho
      refine ⟨.snoc t _ _ i1 ⟨rfl, ?_⟩, ?_, ?_, hkeys⟩
      · obtain ⟨n, hn, hh⟩ := C06_count K hK (changed log) i4
        exact ⟨n, by show Ans.count s'.t.count = _; rw [i3, hn], hh⟩
      · simp only [Call.change, Option.toList, List.append_nil]
        exact i2
      · simp only [Call.change, Option.toList, List.append_nil]
        exact i3

/-! ### C148 -/

/-- **C148.** Goroutines use one trie whose keys are prefix-free.  At every point of every execution there is an order of whole calls that
contains the calls each goroutine has returned from, in its order and with the results it got, and at most the call it is in
besides; a later point only appends to it, so that a call that had returned before another one began comes first.  A map on which
the calls are made in this order gives these results: values, whether something was deleted, the number of keys, the root hash, and
proofs that verify.  This holds unless a hash collision or a 64-byte header is met on the way. -/
theorem C148_linearizable (hE : E.Lawful) (L : Limits) (K : Bytes → Prop) (hK : PrefixFree K) (D : Disk) (hD : D.ok)
    (todo : Nat → List (Call V)) (hk : ∀ t, ∀ o ∈ todo t, ∀ k, o.key = some k → K k) (c c' : Sys (Sess V) (Call V) (Ans V))
    (h : SSteps (code E L) (sInitial _ _ ⟨openTrie none, D⟩ todo) c) (h' : SSteps (code E L) c c') :
    ∃ log ext, (∀ t, ∃ l, entries t log = c.done t ++ l ∧ Pending c t l) ∧ (∀ t, ∃ l, entries t (log ++ ext) = c'.done t ++ l ∧ Pending c' t l) ∧
      (∀ t, (c'.done t).map Prod.fst <+: todo t) ∧
      (Apart E (passed (log ++ ext)) → Explains (serves E) [] (log ++ ext) (changed (log ++ ext))) := by
  obtain ⟨log, h1⟩ := pInv_steps (fun o _ s => body_once o s) pInv_initial h
  rw [List.nil_append] at h1
  obtain ⟨ext, h2⟩ := pInv_steps (fun o _ s => body_once o s) h1 h'
  obtain ⟨s', r2, -⟩ := h2.seq
  refine ⟨log, ext, h1.entries, h2.entries, fun t => ⟨_, by rw [h2.calls t, List.append_assoc]⟩, fun hA => ?_⟩
  refine (replays_map hE hK hD hA r2 (fun a ha => ha) fun e he => ?_).1
  have h3 : e.2 ∈ entries e.1 (log ++ ext) := by
    simp only [entries, List.mem_map, List.mem_filter]
    exact ⟨e, ⟨he, by simp⟩, rfl⟩
  obtain ⟨l, h4, h5⟩ := h2.entries e.1
  rw [h4] at h3
  refine hk e.1 e.2.1 ?_
  rw [h2.calls e.1]
  rcases List.mem_append.1 h3 with h3 | h3
  · exact List.mem_append_left _ (List.mem_append_left _ (List.mem_map_of_mem h3))
  · rcases h5 with rfl | ⟨o, r, k, h6, rfl⟩
    · cases h3
    · rw [List.mem_singleton] at h3
      rw [h6, h3]
      simp

/-- **C148.** No execution gets stuck while calls are left. -/
theorem C148_progress (E : Env V) (L : Limits) (s0 : Sess V) (todo : Nat → List (Call V)) (c : Sys (Sess V) (Call V) (Ans V))
    (h : SSteps (code E L) (sInitial _ _ s0 todo) c) (t : Nat) (ht : (c.done t).map Prod.fst ≠ todo t) : ∃ c', SStep (code E L) c c' := by
  obtain ⟨log, h1⟩ := pInv_steps (fun o _ s => body_once o s) pInv_initial h
  exact h1.progress t ht

/-- `Count` comes between the two steps of a `Put` and sees the trie before it; it would see the trie after it a step later. -/
example : ∃ c, SSteps (code toyE realLimits) (sInitial _ _ ⟨openTrie none, freshDisk⟩ fun t =>
      if t = 0 then [.put [0x12] [1]] else if t = 1 then [.count, .count] else []) c ∧
    c.done 0 = [(.put [0x12] [1], .out (.out (.changed true)))] ∧ c.done 1 = [(.count, .count 0), (.count, .count 1)] := by
  exact ⟨_, .tail (.tail (.tail (.tail (.tail (.tail (.tail (.tail (.tail (.tail (.tail (.tail (.refl _)
    (.call 0 (.put [0x12] [1]) [] rfl rfl))
    (.lock 0 (.put [0x12] [1]) _ rfl))
    (.act 0 (.put [0x12] [1]) _ _ rfl))
    (.call 1 .count [.count] rfl rfl))
    (.act 1 .count _ _ rfl))
    (.ret 1 .count _ rfl))
    (.act 0 (.put [0x12] [1]) _ _ rfl))
    (.call 1 .count [] rfl rfl))
    (.act 1 .count _ _ rfl))
    (.ret 1 .count _ rfl))
    (.unlock 0 (.put [0x12] [1]) _ rfl))
    (.ret 0 (.put [0x12] [1]) _ rfl), rfl, rfl⟩

/-! ### The calls that do not lock -/

/-- The calls with `IsEmpty` and `Collapse`. -/
inductive Any (V : Type) where
  | call (c : Call V)
  | isEmpty
  | collapse

/-- Their results. -/
inductive AnyAns (V : Type) where
  | ans (a : Ans V)
  | empty (b : Bool)
  | collapsed

/-- The same code with another type of results. -/
def Code.mapRet {S R R' : Type} (f : R → R') : Code S R → Code S R'
  | .lock k => .lock (Code.mapRet f k)
  | .act w k => .act w fun s => Code.mapRet f (k s)
  | .unlock k => .unlock (Code.mapRet f k)
  | .ret r => .ret (f r)

/-- A field of the root. -/
def rootIs (f : Info V → (Nib → BNode V) → Bool) (s : Sess V) : Bool :=
  match s.t.root with
  | .nil => false
  | .mk i c => f i c

/-- The next read of the evaluation of `a && b && ...`. -/
def andThen (f : Info V → (Nib → BNode V) → Bool) (k : Code (Sess V) (AnyAns V)) : Code (Sess V) (AnyAns V) :=
  .act id fun s => if rootIs f s then k else .ret (.empty false)

/-- `IsEmpty` (`/repo/trie/trie.go:228-230`, `/repo/trie/node.go:310-315`): five fields of the root are read one after another, without the
lock.  (The root is the same node all the time in the executions below.) -/
def isEmptyCode (E : Env V) : Code (Sess V) (AnyAns V) :=
  andThen (fun i _ => i.pre.isEmpty) <| andThen (fun _ c => !hasKids c) <| andThen (fun i _ => i.value.isNone) <|
    andThen (fun i _ => isEmptyNodeHash E i.hash) <| andThen (fun i _ => (i.vhash.getD []).isEmpty) <| .ret (.empty true)

/-- `Collapse` (`/repo/trie/trie.go:646-660`): the check and the collapsing are two steps, without the lock. -/
def collapseCode (E : Env V) : Code (Sess V) (AnyAns V) :=
  .act id fun s => if rootIs (canCollapse E) s then
    .act (fun s => match s.t.root with
      | .nil => s
      | .mk i c => { s with t := { s.t with root := Store.collapse E i c } }) fun _ => .ret .collapsed
  else .ret .collapsed

/-- The code of all calls. -/
def anyCode (E : Env V) (L : Limits) : Any V → Code (Sess V) (AnyAns V)
  | .call c => Code.mapRet .ans (code E L c)
  | .isEmpty => isEmptyCode E
  | .collapse => collapseCode E

/-- An execution during which `P` holds all the time. -/
inductive During {S O R : Type} (P : S → Prop) (code : O → Code S R) : Sys S O R → Sys S O R → Prop
  | refl (c) : P c.shared → During P code c c
  | tail {a b c} : During P code a b → SStep code b c → P c.shared → During P code a c

section
variable {S O R : Type} {P : S → Prop} {code : O → Code S R}

theorem During.trans {a b c : Sys S O R} (h1 : During P code a b) (h2 : During P code b c) : During P code a c := by
  induction h2 with
  | refl => exact h1
  | tail _ h3 h4 ih => exact .tail ih h3 h4

theorem During.steps {a b : Sys S O R} (h : During P code a b) : SSteps code a b := by
  induction h with
  | refl => exact .refl _
  | tail _ h _ ih => exact .tail ih h

theorem upd_upd {A : Type} (f : Nat → A) (t : Nat) (a b : A) : upd (upd f t a) t b = upd f t b := by
  funext u; simp only [upd]; split <;> rfl

theorem upd_same {A : Type} (f : Nat → A) (t : Nat) {a : A} (h : f t = a) : upd f t a = f := by
  funext u
  simp only [upd]
  split
  · rename_i e; rw [e, h]
  · rfl

theorem upd_at {A : Type} (f : Nat → A) (t : Nat) (a : A) : upd f t a t = a := if_pos rfl

/-- A goroutine makes a call with two steps under the lock while the others rest. -/
theorem two_steps {o : O} {w1 : S → S} {w2 : S → S → S} {r : S → R}
    (hcode : code o = .lock (.act w1 fun s => .act (w2 s) fun _ => .unlock (.ret (r s)))) (t : Nat) (os : List O) (s : S)
    (cur : Nat → Option (O × Code S R)) (todo : Nat → List O) (done : Nat → List (O × R)) (ht : todo t = o :: os) (hc : cur t = none)
    (h0 : P s) (h1 : P (w1 s)) (h2 : P (w2 s (w1 s))) :
    During P code ⟨s, none, cur, todo, done⟩ ⟨w2 s (w1 s), none, cur, upd todo t os, upd done t (done t ++ [(o, r s)])⟩ := by
  have h := During.tail (During.tail (During.tail (During.tail (During.tail (During.tail (During.refl (code := code) ⟨s, none, cur, todo, done⟩ h0)
    (.call t o os ht hc) h0) (.lock t o _ (by rw [upd_at, hcode])) h0) (.act t o _ _ (upd_at _ _ _)) h1)
    (.act t o _ _ (upd_at _ _ _)) h2) (.unlock t o _ (upd_at _ _ _)) h2) (.ret t o _ (upd_at _ _ _)) h2
  simpa only [upd_upd, upd_same cur t hc] using h

/-- The same for a call with one step. -/
theorem one_step {o : O} {w : S → S} {r : S → R} (hcode : code o = .lock (.act w fun s => .unlock (.ret (r s)))) (t : Nat) (os : List O) (s : S)
    (cur : Nat → Option (O × Code S R)) (todo : Nat → List O) (done : Nat → List (O × R)) (ht : todo t = o :: os) (hc : cur t = none)
    (h0 : P s) (h1 : P (w s)) :
    During P code ⟨s, none, cur, todo, done⟩ ⟨w s, none, cur, upd todo t os, upd done t (done t ++ [(o, r s)])⟩ := by
  have h := During.tail (During.tail (During.tail (During.tail (During.tail (During.refl (code := code) ⟨s, none, cur, todo, done⟩ h0)
    (.call t o os ht hc) h0) (.lock t o _ (by rw [upd_at, hcode])) h0) (.act t o _ _ (upd_at _ _ _)) h1)
    (.unlock t o _ (upd_at _ _ _)) h1) (.ret t o _ (upd_at _ _ _)) h1
  simpa only [upd_upd, upd_same cur t hc] using h

end

/-- The session after the first and after the second step of a change. -/
def half (E : Env V) (op : SOp V) (s : Sess V) : Sess V := recount (sstep E noFaults s op).1 s.t.count
def whole (E : Env V) (op : SOp V) (s : Sess V) : Sess V := recount (half E op s) (sstep E noFaults s op).1.t.count

theorem put_runs {P : Sess V → Prop} (k : Bytes) (x : V) (t : Nat) (os : List (Any V)) (s : Sess V) (cur : Nat → Option (Any V × Code (Sess V) (AnyAns V)))
    (todo : Nat → List (Any V)) (done : Nat → List (Any V × AnyAns V)) (ht : todo t = .call (.put k x) :: os) (hc : cur t = none)
    (h0 : P s) (h1 : P (half E (.put k x) s)) (h2 : P (whole E (.put k x) s)) :
    During P (anyCode E L) ⟨s, none, cur, todo, done⟩ ⟨whole E (.put k x) s, none, cur, upd todo t os,
      upd done t (done t ++ [(.call (.put k x), .ans (.out (.out (sstep E noFaults s (.put k x)).2)))])⟩ :=
  two_steps (code := anyCode E L) (o := .call (.put k x)) (w1 := half E (.put k x)) (w2 := fun s s' => recount s' (sstep E noFaults s (.put k x)).1.t.count)
    (r := fun s => AnyAns.ans (.out (.out (sstep E noFaults s (.put k x)).2))) rfl t os s cur todo done ht hc h0 h1 h2

theorem del_runs {P : Sess V → Prop} (k : Bytes) (t : Nat) (os : List (Any V)) (s : Sess V) (cur : Nat → Option (Any V × Code (Sess V) (AnyAns V)))
    (todo : Nat → List (Any V)) (done : Nat → List (Any V × AnyAns V)) (ht : todo t = .call (.del k) :: os) (hc : cur t = none)
    (h0 : P s) (h1 : P (half E (.del k) s)) (h2 : P (whole E (.del k) s)) :
    During P (anyCode E L) ⟨s, none, cur, todo, done⟩ ⟨whole E (.del k) s, none, cur, upd todo t os,
      upd done t (done t ++ [(.call (.del k), .ans (.out (.out (sstep E noFaults s (.del k)).2)))])⟩ :=
  two_steps (code := anyCode E L) (o := .call (.del k)) (w1 := half E (.del k)) (w2 := fun s s' => recount s' (sstep E noFaults s (.del k)).1.t.count)
    (r := fun s => AnyAns.ans (.out (.out (sstep E noFaults s (.del k)).2))) rfl t os s cur todo done ht hc h0 h1 h2

theorem get_runs {P : Sess V → Prop} (k : Bytes) (t : Nat) (os : List (Any V)) (s : Sess V) (cur : Nat → Option (Any V × Code (Sess V) (AnyAns V)))
    (todo : Nat → List (Any V)) (done : Nat → List (Any V × AnyAns V)) (ht : todo t = .call (.get k) :: os) (hc : cur t = none)
    (h0 : P s) (h1 : P (sstep E noFaults s (.get k)).1) :
    During P (anyCode E L) ⟨s, none, cur, todo, done⟩ ⟨(sstep E noFaults s (.get k)).1, none, cur, upd todo t os,
      upd done t (done t ++ [(.call (.get k), .ans (.out (.out (sstep E noFaults s (.get k)).2)))])⟩ :=
  one_step (code := anyCode E L) (o := .call (.get k)) (w := fun s => (sstep E noFaults s (.get k)).1)
    (r := fun s => AnyAns.ans (.out (.out (sstep E noFaults s (.get k)).2))) rfl t os s cur todo done ht hc h0 h1

/-- A key is stored. -/
def Stored (E : Env V) (s : Sess V) : Prop := ∃ k x, (s.t.get E s.D k).2 = some x

/-- `IsEmpty` reads the first two fields of the root, then another goroutine makes three calls, then it reads the other ones. -/
theorem isEmpty_runs {P : Sess V → Prop} (k1 k2 k3 : Bytes) (x1 x2 : V) (s0 s1 s2 s3 : Sess V) (e1 : s1 = whole E (.put k1 x1) s0)
    (e2 : s2 = whole E (.put k2 x2) s1) (e3 : s3 = whole E (.del k3) s2)
    (h1 : rootIs (fun i _ => i.pre.isEmpty) s0 = true) (h2 : rootIs (fun _ c => !hasKids c) s0 = true)
    (h3 : rootIs (fun i _ => i.value.isNone) s3 = true) (h4 : rootIs (fun i _ => isEmptyNodeHash E i.hash) s3 = true)
    (h5 : rootIs (fun i _ => (i.vhash.getD []).isEmpty) s3 = true)
    (p0 : P s0) (q0 : P (half E (.put k1 x1) s0)) (p1 : P s1) (q1 : P (half E (.put k2 x2) s1)) (p2 : P s2) (q2 : P (half E (.del k3) s2)) (p3 : P s3) :
    ∃ (todo : Nat → List (Any V)) (c : Sys (Sess V) (Any V) (AnyAns V)),
      During P (anyCode E L) (sInitial _ _ s0 todo) c ∧ c.done 1 = [(.isEmpty, .empty true)] := by
  subst e1 e2 e3
  let todo : Nat → List (Any V) := fun t =>
    if t = 0 then [.call (.put k1 x1), .call (.put k2 x2), .call (.del k3)] else if t = 1 then [.isEmpty] else []
  have a1 := During.tail (During.refl (P := P) (code := anyCode E L) (sInitial (Any V) (AnyAns V) s0 todo) p0)
    (.call 1 .isEmpty [] rfl rfl) p0
  have a2 := a1.tail (.act 1 .isEmpty _ _ (upd_at _ _ _)) p0
  rw [upd_upd] at a2
  simp only [h1, if_true] at a2
  have a3 := a2.tail (.act 1 .isEmpty _ _ (upd_at _ _ _)) p0
  rw [upd_upd] at a3
  simp only [id, h2, if_true] at a3
  have a4 := a3.trans (put_runs k1 x1 0 [.call (.put k2 x2), .call (.del k3)] s0 _ _ _ rfl rfl p0 q0 p1)
  have a5 := a4.trans (put_runs k2 x2 0 [.call (.del k3)] _ _ _ _ rfl rfl p1 q1 p2)
  have a6 := a5.trans (del_runs k3 0 [] _ _ _ _ rfl rfl p2 q2 p3)
  have a7 := a6.tail (.act 1 .isEmpty _ _ (upd_at _ _ _)) p3
  rw [upd_upd] at a7
  simp only [id, h3, if_true] at a7
  have a8 := a7.tail (.act 1 .isEmpty _ _ (upd_at _ _ _)) p3
  rw [upd_upd] at a8
  simp only [id, h4, if_true] at a8
  have a9 := a8.tail (.act 1 .isEmpty _ _ (upd_at _ _ _)) p3
  rw [upd_upd] at a9
  simp only [id, h5, if_true] at a9
  have a10 := a9.tail (.ret 1 .isEmpty _ (upd_at _ _ _)) p3
  exact ⟨todo, _, a10, rfl⟩

theorem stored_of {s : Sess V} (k : Bytes) (h : ((s.t.get E s.D k).2).isSome = true) : Stored E s := by
  obtain ⟨x, hx⟩ := Option.isSome_iff_exists.1 h
  exact ⟨k, x, hx⟩

/-- A trie that holds the empty key. -/
def one : Sess Bytes := srun toyE noFaults ⟨openTrie none, freshDisk⟩ [.put [] [9]]
def oneA : Sess Bytes := whole toyE (.put [0x12] [1]) one
def oneB : Sess Bytes := whole toyE (.put [0x34] [2]) oneA

/-- **C148 fails for `IsEmpty`**, which takes no lock: it can say that a trie is empty in which there is a key all the time. -/
theorem C148_isEmpty_refuted : ∃ (todo : Nat → List (Any Bytes)) (c : Sys (Sess Bytes) (Any Bytes) (AnyAns Bytes)),
    During (Stored toyE) (anyCode toyE realLimits) (sInitial _ _ one todo) c ∧ c.done 1 = [(.isEmpty, .empty true)] :=
  isEmpty_runs [0x12] [0x34] [] [1] [2] one oneA oneB (whole toyE (.del []) oneB) rfl rfl rfl
    (by decide +kernel) (by decide +kernel) (by decide +kernel) (by decide +kernel) (by decide +kernel)
    (stored_of [] (by decide +kernel)) (stored_of [] (by decide +kernel)) (stored_of [] (by decide +kernel)) (stored_of [] (by decide +kernel))
    (stored_of [] (by decide +kernel)) (stored_of [0x12] (by decide +kernel)) (stored_of [0x12] (by decide +kernel))

/-- `Collapse` checks the root, another goroutine puts a value, `Collapse` collapses the root, and the values are asked for. -/
theorem collapse_runs (k1 k2 : Bytes) (x : V) (s0 s1 s2 s3 : Sess V) (e1 : s1 = whole E (.put k2 x) s0)
    (e2 : ∃ i c, s1.t.root = .mk i c ∧ s2 = { s1 with t := { s1.t with root := Store.collapse E i c } })
    (e3 : s3 = (sstep E noFaults s2 (.get k1)).1) (h1 : rootIs (canCollapse E) s0 = true) (r0 : (sstep E noFaults s0 (.put k2 x)).2 = .changed true)
    (r1 : (sstep E noFaults s2 (.get k1)).2 = .value none) (r2 : (sstep E noFaults s3 (.get k2)).2 = .value none) :
    ∃ (c : Sys (Sess V) (Any V) (AnyAns V)),
      SSteps (anyCode E L) (sInitial _ _ s0 fun t => if t = 0 then [.call (.put k2 x), .call (.get k1), .call (.get k2)] else
        if t = 1 then [.collapse] else []) c ∧
      c.done 0 = [(.call (.put k2 x), .ans (.out (.out (.changed true)))), (.call (.get k1), .ans (.out (.out (.value none)))),
        (.call (.get k2), .ans (.out (.out (.value none))))] ∧ c.done 1 = [(.collapse, .collapsed)] := by
  subst e1 e3
  obtain ⟨i, d, e2, rfl⟩ := e2
  have a1 := During.tail (During.refl (P := fun _ => True) (code := anyCode E L) (sInitial (Any V) (AnyAns V) s0 fun t =>
      if t = 0 then [.call (.put k2 x), .call (.get k1), .call (.get k2)] else if t = 1 then [.collapse] else []) trivial)
    (.call 1 .collapse [] rfl rfl) trivial
  have a2 := a1.tail (.act 1 .collapse _ _ (upd_at _ _ _)) trivial
  rw [upd_upd] at a2
  simp only [id, h1, if_true] at a2
  have a3 := a2.trans (put_runs k2 x 0 [.call (.get k1), .call (.get k2)] s0 _ _ _ rfl rfl trivial trivial trivial)
  have a4 := a3.tail (.act 1 .collapse _ _ (upd_at _ _ _)) trivial
  rw [upd_upd] at a4
  simp only [e2] at a4
  have a5 := a4.trans (get_runs k1 0 [.call (.get k2)] _ _ _ _ rfl rfl trivial trivial)
  have a6 := a5.trans (get_runs k2 0 [] _ _ _ _ rfl rfl trivial trivial)
  have a7 := a6.tail (.ret 1 .collapse _ (upd_at _ _ _)) trivial
  refine ⟨_, a7.steps, ?_, rfl⟩
  rw [r0, r1, r2]
  rfl

/-- A trie with one value, committed. -/
def stored1 : Sess Bytes := srun toyE noFaults ⟨openTrie none, freshDisk⟩ [.put [0x12, 0x34] [1], .commit realLimits]
def stored2 : Sess Bytes := whole toyE (.put [0x12, 0x35] [2]) stored1

/-- The root collapsed. -/
def collapsedRoot (E : Env V) (s : Sess V) : Sess V :=
  match s.t.root with
  | .nil => s
  | .mk i c => { s with t := { s.t with root := Store.collapse E i c } }

theorem collapsedRoot_spec {s : Sess V} (h : s.t.root.isSome = true) :
    ∃ i c, s.t.root = .mk i c ∧ collapsedRoot E s = { s with t := { s.t with root := Store.collapse E i c } } := by
  cases hr : s.t.root with
  | nil => rw [hr] at h; cases h
  | mk i c => exact ⟨i, c, rfl, by rw [collapsedRoot, hr]⟩

/-- **C148 fails for `Collapse`**, which takes no lock: when it meets a `Put`, a goroutine that has put a value finds neither this value
nor one that was stored and committed long before, although nobody deletes anything. -/
theorem C148_collapse_refuted : ∃ (c : Sys (Sess Bytes) (Any Bytes) (AnyAns Bytes)),
    (stored1.t.get toyE stored1.D [0x12, 0x34]).2 = some [1] ∧
    SSteps (anyCode toyE realLimits) (sInitial _ _ stored1 fun t =>
      if t = 0 then [.call (.put [0x12, 0x35] [2]), .call (.get [0x12, 0x34]), .call (.get [0x12, 0x35])] else if t = 1 then [.collapse] else []) c ∧
    c.done 0 = [(.call (.put [0x12, 0x35] [2]), .ans (.out (.out (.changed true)))), (.call (.get [0x12, 0x34]), .ans (.out (.out (.value none)))),
      (.call (.get [0x12, 0x35]), .ans (.out (.out (.value none))))] ∧ c.done 1 = [(.collapse, .collapsed)] := by
  obtain ⟨c, h⟩ := collapse_runs (L := realLimits) [0x12, 0x34] [0x12, 0x35] [2] stored1 stored2 (collapsedRoot toyE stored2) _ rfl
    (collapsedRoot_spec (by decide +kernel)) rfl (by decide +kernel) (by decide +kernel) (by decide +kernel) (by decide +kernel)
  exact ⟨c, by decide +kernel, h⟩

end Verif.Trie.Shared

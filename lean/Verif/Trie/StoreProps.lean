import Verif.Trie.StoreSteps
import Verif.Trie.HashProps

/-!
# Properties C07, C08 and C98: commit, collapse and reload

A session is a trie together with its storage.  Besides the map calls it can hash, commit, collapse any set of clean nodes,
and be reopened: commit, forget everything, open a trie from the root hash over the same storage.
-/

namespace Verif.Trie.Store
open Verif Verif.Merkle Verif.Trie

variable {V : Type}

/-! ### Vocabulary of the statements -/

/-- One call on a session. -/
inductive SOp (V : Type) where
  | get (key : Bytes)
  | put (key : Bytes) (x : V)
  | del (key : Bytes)
  | hash
  | commit (L : Limits)
  | fold (nodes values : List Nib → Bool)
  | reopen (L : Limits) (gen : UInt64)

/-- What a call returns. -/
inductive Out (V : Type) where
  | value (v : Option V)
  | changed (b : Bool)
  | deleted (b : Bool) (old : Option V)
  | root (h : Bytes)
  | done (ok : Bool)
  | panic
deriving DecidableEq

/-- A trie and its storage. -/
structure Sess (V : Type) where
  t : BTrie V
  D : Disk

/-- The calls on a session. -/
def sstep (E : Env V) (F : Faults) (s : Sess V) : SOp V → Sess V × Out V
  | .get k => let r := s.t.get E s.D k; (⟨r.1, s.D⟩, .value r.2)
  | .put k x => let r := s.t.put E s.D k x; (⟨r.1, s.D⟩, .changed r.2)
  | .del k =>
    match s.t.del E s.D k with
    | none => (s, .panic)
    | some r => (⟨r.1, s.D⟩, .deleted r.2.1 r.2.2)
  | .hash => let r := s.t.hash E; (⟨r.1, s.D⟩, .root r.2)
  | .commit L => let r := s.t.commit E F L s.D; (⟨r.1, r.2.1⟩, .done r.2.2)
  | .fold n v => (⟨{ s.t with root := foldSome E n v s.t.root }, s.D⟩, .done true)
  | .reopen L g =>
    let r := s.t.commit E F L s.D
    (⟨⟨newNode (some (r.1.hash E).2) g, 0, g⟩, r.2.1⟩, .done r.2.2)

/-- The answers to a sequence of calls. -/
def outs (E : Env V) (F : Faults) : Sess V → List (SOp V) → List (Out V)
  | _, [] => []
  | s, op :: ops => (sstep E F s op).2 :: outs E F (sstep E F s op).1 ops

/-- The session after a sequence of calls. -/
def srun (E : Env V) (F : Faults) (s : Sess V) (ops : List (SOp V)) : Sess V := ops.foldl (fun s op => (sstep E F s op).1) s

/-- The call on the map, for the calls that change it. -/
def SOp.call : SOp V → Option (Op V)
  | .put k x => some (.put k x)
  | .del k => some (.del k)
  | _ => none

/-- The key a call addresses. -/
def SOp.key : SOp V → Option Bytes
  | .get k => some k
  | .put k _ => some k
  | .del k => some k
  | _ => none

/-- The answer of a map that is never stored anywhere, after the calls `h`: values by the map, the root hash by a trie
that is only kept in memory; commits and reopenings just succeed. -/
def answer (E : Env V) (h : List (Op V)) : SOp V → Out V
  | .get k => .value (spec h k)
  | .put _ _ => .changed true
  | .del k => .deleted (spec h k).isSome (spec h k)
  | .hash => .root ((newTrie.run h).hash E.H E.R E.vh)
  | .commit _ => .done true
  | .fold _ _ => .done true
  | .reopen _ _ => .done true

/-- The answers of such a map to a sequence of calls. -/
def expect (E : Env V) : List (Op V) → List (SOp V) → List (Out V)
  | _, [] => []
  | h, op :: ops => answer E h op :: expect E (h ++ op.call.toList) ops

/-- The answer of a trie that is only kept in memory, whatever the keys. -/
def answerT (E : Env V) (t : MTrie V) : SOp V → Out V
  | .get k => .value (t.get k)
  | .put k x => .changed (t.put k x).2
  | .del k => .deleted (t.del k).2.1 (t.del k).2.2
  | .hash => .root (t.hash E.H E.R E.vh)
  | .commit _ => .done true
  | .fold _ _ => .done true
  | .reopen _ _ => .done true

/-- The answers of such a trie to a sequence of calls. -/
def expectT (E : Env V) : MTrie V → List (SOp V) → List (Out V)
  | _, [] => []
  | t, op :: ops => answerT E t op :: expectT E (t.run op.call.toList) ops

/-- The trees that a sequence of calls goes through. -/
def along (ops : List (SOp V)) : Node V → Prop := fun a => ∃ pre, pre <+: ops ∧ a = (newTrie.run (pre.filterMap SOp.call)).root

/-! ### C07 -/

theorem noFaults_harmless (E : Env V) (G : Node V → Prop) : Harmless E G noFaults := ⟨fun _ _ _ _ => rfl, fun _ _ _ _ => rfl⟩

variable {E : Env V}

/-- Every key that a call addresses is stored at that time, or no stored key properly extends it. -/
def ClearOps : List (Op V) → List (SOp V) → Prop
  | _, [] => True
  | h, op :: ops => (∀ k, op.key = some k → Clear (spec h) k) ∧ ClearOps (h ++ op.call.toList) ops

/-- The session stands for the trie in memory. -/
structure SInv (E : Env V) (s : Sess V) (h : List (Op V)) : Prop where
  disk : s.D.ok
  rep : Rep E s.D s.t.root (newTrie.run h).root

theorem run_concat (h : List (Op V)) (op : Op V) : (newTrie (V := V)).run (h ++ [op]) = ((newTrie (V := V)).run h).step op := by
  simp [MTrie.run]

theorem run_append (h g : List (Op V)) : (newTrie (V := V)).run (h ++ g) = ((newTrie (V := V)).run h).run g := by
  simp [MTrie.run]

/-- Whatever the calls, the trie in memory is well-formed. -/
theorem wf_run (h : List (Op V)) : WFRoot ((newTrie (V := V)).run h).root := by
  induction h using List.reverseRecOn with
  | nil => exact WFRoot_new
  | append_singleton h op ih =>
    rw [run_concat]
    cases op with
    | put k x => exact WFRoot_insert ih _ _
    | del k => exact (delete_root ih _).1

/-- The calls that do not write to the storage. -/
def SOp.reads : SOp V → Bool
  | .commit _ => false
  | .reopen _ _ => false
  | _ => true

theorem call_key {op : SOp V} {o : Op V} (h : op.call = some o) : op.key = some o.key := by
  cases op <;> simp [SOp.call] at h <;> subst h <;> rfl

theorem inv_call {h : List (Op V)} (hinv : Inv ((newTrie (V := V)).run h) (spec h)) (op : SOp V)
    (hk : ∀ k, op.key = some k → Clear (spec h) k) :
    Inv ((newTrie (V := V)).run (h ++ op.call.toList)) (spec (h ++ op.call.toList)) := by
  cases ho : op.call with
  | none => simpa using hinv
  | some o =>
    have := hinv.step (hk _ (call_key ho))
    rw [Option.toList, run_concat]
    have hs : spec (h ++ [o]) = specStep (spec h) o := by rw [spec, List.foldl_append]; rfl
    rw [hs]
    exact this

theorem clearOps_prefixFree {K : Bytes → Prop} (hK : PrefixFree K) (ops : List (SOp V)) : ∀ (h : List (Op V)),
    (∀ op ∈ h, K op.key) → (∀ op ∈ ops, ∀ k, op.key = some k → K k) → ClearOps h ops := by
  induction ops with
  | nil => intro h _ _; trivial
  | cons op ops ih =>
    intro h hh hk
    refine ⟨fun k hkk => clear_of_prefixFree hK h hh (hk op List.mem_cons_self k hkk), ih _ ?_ fun o ho => hk o (List.mem_cons_of_mem _ ho)⟩
    intro o ho
    rcases List.mem_append.1 ho with ho | ho
    · exact hh o ho
    · exact hk op List.mem_cons_self _ (call_key (Option.mem_toList.1 ho))

theorem inv_nil : Inv ((newTrie (V := V)).run []) (spec []) := Inv.of_clear [] trivial

/-- For unambiguous calls the trie in memory answers like the map. -/
theorem answerT_clear {h : List (Op V)} (hinv : Inv ((newTrie (V := V)).run h) (spec h)) (op : SOp V)
    (hk : ∀ k, op.key = some k → Clear (spec h) k) : answerT E (newTrie.run h) op = answer E h op := by
  cases op with
  | get k => rw [answerT, answer, hinv.get (hk k rfl)]
  | put k x =>
    rw [answerT, answer]
    show Out.changed (insert (newTrie.run h).root (keyToPrefix k) x).changed = _
    rw [insert_changed _ hinv.wf.isSome]
  | del k =>
    obtain ⟨-, -, hch, hold, -⟩ := delete_root hinv.wf (keyToPrefix k)
    have hr : reach (newTrie.run h).root (keyToPrefix k) = keyToPrefix k := hinv.reach (hk k rfl)
    rw [hr, hinv.look] at hch hold
    rw [answerT, answer]
    show Out.deleted (delete (newTrie.run h).root (keyToPrefix k)).changed (delete (newTrie.run h).root (keyToPrefix k)).old = _
    rw [hch, hold]
  | hash => rfl
  | commit L => rfl
  | fold n v => rfl
  | reopen L g => rfl

theorem expectT_clear (ops : List (SOp V)) : ∀ (h : List (Op V)), Inv ((newTrie (V := V)).run h) (spec h) → ClearOps h ops →
    expectT E (newTrie.run h) ops = expect E h ops := by
  induction ops with
  | nil => intro h _ _; rfl
  | cons op ops ih =>
    intro h hinv hk
    rw [expectT, expect, answerT_clear hinv op hk.1, ← run_append, ih _ (inv_call hinv op hk.1) hk.2]

theorem clear_inv (ops : List (SOp V)) : ∀ (h : List (Op V)), Inv ((newTrie (V := V)).run h) (spec h) → ClearOps h ops →
    Inv ((newTrie (V := V)).run (h ++ ops.filterMap SOp.call)) (spec (h ++ ops.filterMap SOp.call)) := by
  induction ops with
  | nil => intro h hinv _; simpa using hinv
  | cons op ops ih =>
    intro h hinv hk
    have := ih _ (inv_call hinv op hk.1) hk.2
    cases ho : op.call with
    | none => rw [ho] at this; simpa [List.filterMap_cons, ho] using this
    | some o => rw [ho] at this; simpa [List.filterMap_cons, ho] using this

theorem sstep_reads (hE : E.Lawful) (F : Faults) {h : List (Op V)} {s : Sess V}
    (hrep : Rep E s.D s.t.root (newTrie.run h).root) (op : SOp V) (hop : op.reads = true) :
    (sstep E F s op).2 = answerT E (newTrie.run h) op ∧ (sstep E F s op).1.D = s.D ∧
    Rep E s.D (sstep E F s op).1.t.root (newTrie.run (h ++ op.call.toList)).root := by
  have hwf := wf_run h
  have hsame : h ++ ([] : List (Op V)) = h := List.append_nil h
  cases op with
  | get k =>
    obtain ⟨h1, h2⟩ := get_step hE hrep hwf k
    refine ⟨by rw [sstep, h1]; rfl, rfl, ?_⟩
    simp only [SOp.call, Option.toList, hsame]
    exact h2
  | put k x =>
    obtain ⟨h1, -, h2⟩ := put_step hE hrep hwf k x
    refine ⟨by rw [sstep, h1]; rfl, rfl, ?_⟩
    simp only [SOp.call, Option.toList, run_concat]
    exact h2
  | del k =>
    obtain ⟨t', h1, -, -, h2⟩ := del_step hE hrep hwf k
    have hstep : sstep E F s (.del k) = (⟨t', s.D⟩, .deleted (delete (newTrie.run h).root (keyToPrefix k)).changed
        (delete (newTrie.run h).root (keyToPrefix k)).old) := by rw [sstep, h1]
    rw [hstep]
    refine ⟨rfl, rfl, ?_⟩
    simp only [SOp.call, Option.toList, run_concat]
    exact h2
  | hash =>
    obtain ⟨h1, h2⟩ := hash_step hrep hwf
    refine ⟨by rw [sstep, h1]; rfl, rfl, ?_⟩
    simp only [SOp.call, Option.toList, hsame]
    exact h2
  | fold n v =>
    refine ⟨rfl, rfl, ?_⟩
    simp only [SOp.call, Option.toList, hsame]
    exact (foldSome_spec hE _ n v hrep)
  | commit L => simp [SOp.reads] at hop
  | reopen L g => simp [SOp.reads] at hop

theorem sstep_spec (hE : E.Lawful) {T : Node V → Prop} (hA : Apart E T) {F : Faults}
    (hF : Harmless E (nodesOf T) F) {h : List (Op V)} {s : Sess V} (hs : SInv E s h) (op : SOp V)
    (hT : T (newTrie.run h).root) :
    (sstep E F s op).2 = answerT E (newTrie.run h) op ∧ SInv E (sstep E F s op).1 (h ++ op.call.toList) := by
  by_cases hop : op.reads = true
  · obtain ⟨h1, h2, h4⟩ := sstep_reads hE F hs.rep op hop
    exact ⟨h1, h2 ▸ hs.disk, h2 ▸ h4⟩
  have hG := hA.ghost hE
  have hwf := wf_run h
  have hT0 : nodesOf T (newTrie.run h).root := ⟨hwf.isSome, _, hT, Sub.refl _⟩
  have hsame : h ++ ([] : List (Op V)) = h := List.append_nil h
  cases op with
  | commit L =>
    obtain ⟨h1, h2, -, h3, -⟩ := commit_step hE hG hF L hs.disk hs.rep hwf hT0
    refine ⟨by rw [sstep, h1]; rfl, ?_⟩
    simp only [SOp.call, Option.toList, hsame]
    exact ⟨h2, h3⟩
  | reopen L g =>
    obtain ⟨h1, h2, -, h3, h4⟩ := commit_step hE hG hF L hs.disk hs.rep hwf hT0
    refine ⟨by rw [sstep, h1]; rfl, ?_⟩
    simp only [SOp.call, Option.toList, hsame]
    refine ⟨h2, ?_⟩
    show Rep E _ (newNode (some _) g) _
    rw [(hash_step h3 hwf).1]
    exact rep_open hwf h4 g
  | get k => simp [SOp.reads] at hop
  | put k x => simp [SOp.reads] at hop
  | del k => simp [SOp.reads] at hop
  | hash => simp [SOp.reads] at hop
  | fold n v => simp [SOp.reads] at hop

theorem filterMap_toList (op : SOp V) (ops : List (SOp V)) :
    (op :: ops).filterMap SOp.call = op.call.toList ++ ops.filterMap SOp.call := by
  cases h : op.call <;> simp [h]

theorem outs_spec (hE : E.Lawful) {T : Node V → Prop} (hA : Apart E T) {F : Faults}
    (hF : Harmless E (nodesOf T) F) (ops : List (SOp V)) : ∀ (h : List (Op V)) (s : Sess V), SInv E s h →
    (∀ pre, pre <+: ops → T (newTrie.run (h ++ pre.filterMap SOp.call)).root) →
    outs E F s ops = expectT E (newTrie.run h) ops ∧ SInv E (srun E F s ops) (h ++ ops.filterMap SOp.call) := by
  induction ops with
  | nil => intro h s hs _; exact ⟨rfl, by rw [List.filterMap_nil, List.append_nil]; exact hs⟩
  | cons op ops ih =>
    intro h s hs hT
    obtain ⟨h1, h2⟩ := sstep_spec hE hA hF hs op
      (by have := hT [] (List.nil_prefix); simpa using this)
    obtain ⟨h3, h4⟩ := ih _ _ h2 (by
      intro pre hp
      have := hT (op :: pre) (by simpa using hp)
      rwa [filterMap_toList, ← List.append_assoc] at this)
    refine ⟨by rw [outs, expectT, h1, h3, run_append], ?_⟩
    rwa [filterMap_toList, ← List.append_assoc]

/-- **C07**, whatever the keys: committing, collapsing any clean nodes, dropping values and reopening are transparent: the
session answers exactly as a trie that is only kept in memory. -/
theorem C07_transparent_all (hE : E.Lawful) (ops : List (SOp V)) (hA : Apart E (along ops))
    (D : Disk) (hD : D.ok) : outs E noFaults ⟨openTrie none, D⟩ ops = expectT E newTrie ops := by
  refine (outs_spec hE hA (noFaults_harmless E _) ops [] _ ⟨hD, rep_openNil⟩ ?_).1
  intro pre hp
  exact ⟨pre, hp, rfl⟩

/-- **C07**, for calls that may address keys extending one another, as long as every key addressed is stored at that
time or has no stored proper extension: the session answers like a map. -/
theorem C07_transparent_clear (hE : E.Lawful) (ops : List (SOp V)) (hk : ClearOps [] ops) (hA : Apart E (along ops))
    (D : Disk) (hD : D.ok) : outs E noFaults ⟨openTrie none, D⟩ ops = expect E [] ops := by
  rw [C07_transparent_all hE ops hA D hD]
  exact expectT_clear ops [] inv_nil hk

/-- **C07.** Over a prefix-free set of keys, committing, collapsing any clean nodes, dropping values and reopening the trie
from its root hash are transparent: whatever the sequence of calls, every `Get`, `Put`, `Delete` and `HashValue` answers
exactly as a trie that is only kept in memory, and every commit succeeds.  The hypothesis is that the hash computations of
the trees passed through never meet a digest collision or a 64-byte header, and that no two different values stored have
the same value hash.  The storage may hold anything at the beginning. -/
theorem C07_transparent (hE : E.Lawful) (K : Bytes → Prop) (hK : PrefixFree K) (ops : List (SOp V))
    (hk : ∀ op ∈ ops, ∀ k, op.key = some k → K k) (hA : Apart E (along ops)) (D : Disk) (hD : D.ok) :
    outs E noFaults ⟨openTrie none, D⟩ ops = expect E [] ops := by
  exact C07_transparent_clear hE ops (clearOps_prefixFree hK ops [] (by simp) hk) hA D hD

theorem spec_value (h : List (Op V)) (k : Bytes) (x : V) (hx : spec h k = some x) : ∃ k', Op.put k' x ∈ h := by
  induction h using List.reverseRecOn with
  | nil => simp [spec] at hx
  | append_singleton h op ih =>
    rw [spec, List.foldl_append] at hx
    have hx : specStep (spec h) op k = some x := hx
    have old : spec h k = some x → ∃ k', Op.put k' x ∈ h ++ [op] := by
      intro h'
      obtain ⟨k', hk'⟩ := ih h'
      exact ⟨k', List.mem_append.2 (Or.inl hk')⟩
    cases op with
    | put k2 y =>
      rw [specStep_put] at hx
      split at hx
      · cases hx
        exact ⟨k2, by simp⟩
      · exact old hx
    | del k2 =>
      rw [specStep_del] at hx
      split at hx
      · simp at hx
      · exact old hx

theorem no64_fixed {R : Rtl} {len : Nat} (hlen : ∀ k : Bytes, k.length ≤ len → (R.enc k).length ≤ 60) (h : List (Op V))
    (ho : ∀ op ∈ h, op.key.length = len) : No64 R ((newTrie (V := V)).run h).root := by
  have i := Inv.of_prefixFree (prefixFree_fixed len) h ho
  have hk : ∀ q, (lookup ((newTrie (V := V)).run h).root q).isSome = true → q.length ≤ 2 * len := by
    intro q hq
    obtain ⟨k, rfl⟩ := i.keys q hq
    rw [i.look] at hq
    have := spec_keys (K := fun k => k.length = len) h ho (fun _ => none) (by simp) k hq
    rw [keyToPrefix_length, this]
    omega
  have hsh : ∀ n : Node V, WFRoot n → (∀ q, (lookup n q).isSome = true → q.length ≤ 2 * len) → Shallow (2 * len) n := by
    intro n hw hq
    cases n with
    | nil => trivial
    | mk p v c =>
      rcases hw with hw | hw
      · obtain ⟨rfl, rfl, hc⟩ := (isEmpty_iff _ _ _).1 hw
        refine ⟨by simp, fun i => ?_⟩
        rw [hc i]; trivial
      · exact shallow_of_keys hw hq
  exact no64_of_shallow (b := 2 * len) (fun k hk => hlen k (by omega)) (hsh _ i.wf hk)

/-- The digest inputs of the trees along a history do not collide, and neither do the hashes of the values put. -/
structure NoCollision (E : Env V) (ops : List (SOp V)) : Prop where
  values : ∀ k x k' y, SOp.put k x ∈ ops → SOp.put k' y ∈ ops → E.vh x = E.vh y → x = y
  digest : ∀ a b, along ops a → along ops b → ¬ Collision E.H (inputs E.H E.R E.vh a) (inputs E.H E.R E.vh b)

theorem apart_fixed {len : Nat} (hlen : ∀ k : Bytes, k.length ≤ len → (E.R.enc k).length ≤ 60) (ops : List (SOp V))
    (hk : ∀ op ∈ ops, ∀ k, op.key = some k → k.length = len) (hN : NoCollision E ops) : Apart E (along ops) := by
  have hkeys : ∀ pre, pre <+: ops → ∀ o ∈ pre.filterMap SOp.call, o.key.length = len := by
    intro pre hp o ho
    obtain ⟨op, h1, h2⟩ := List.mem_filterMap.1 ho
    exact hk op (hp.subset h1) _ (call_key h2)
  have hval : ∀ pre, pre <+: ops → ∀ q x, lookup (newTrie.run (pre.filterMap SOp.call)).root q = some x →
      ∃ k, SOp.put k x ∈ ops := by
    intro pre hp q x hq
    have i := Inv.of_prefixFree (prefixFree_fixed len) _ (hkeys pre hp)
    obtain ⟨k, rfl⟩ := i.keys q (by simp [hq])
    rw [i.look] at hq
    obtain ⟨k', hk'⟩ := spec_value _ k x hq
    obtain ⟨op, h1, h2⟩ := List.mem_filterMap.1 hk'
    refine ⟨k', hp.subset ?_⟩
    cases op <;> simp [SOp.call] at h2
    obtain ⟨rfl, rfl⟩ := h2
    exact h1
  refine ⟨⟨[], List.nil_prefix, rfl⟩, ?_, ?_, fun ha hb => hN.digest _ _ ha hb⟩
  · rintro a b q r x y ⟨pre, hp, rfl⟩ ⟨pre', hp', rfl⟩ hx hy
    obtain ⟨k, h1⟩ := hval pre hp q x hx
    obtain ⟨k', h2⟩ := hval pre' hp' r y hy
    exact hN.values _ _ _ _ h1 h2
  · rintro a ⟨pre, hp, rfl⟩
    exact no64_fixed hlen _ (hkeys pre hp)

/-- **C07** for keys of one fixed length. -/
theorem C07_transparent_fixed (hE : E.Lawful) (len : Nat) (hlen : ∀ k : Bytes, k.length ≤ len → (E.R.enc k).length ≤ 60)
    (ops : List (SOp V)) (hk : ∀ op ∈ ops, ∀ k, op.key = some k → k.length = len) (hN : NoCollision E ops)
    (D : Disk) (hD : D.ok) : outs E noFaults ⟨openTrie none, D⟩ ops = expect E [] ops :=
  C07_transparent hE _ (prefixFree_fixed len) ops hk (apart_fixed hlen ops hk hN) D hD

/-- **C07.** The statement for one reload: after any calls, a commit and a reload, every `Get` and the root hash are those
of the calls made. -/
theorem C07_reload (hE : E.Lawful) (len : Nat) (hlen : ∀ k : Bytes, k.length ≤ len → (E.R.enc k).length ≤ 60)
    (ops : List (SOp V)) (hk : ∀ op ∈ ops, ∀ k, op.key = some k → k.length = len) (hN : NoCollision E ops)
    (D : Disk) (hD : D.ok) (L : Limits) (g : UInt64) (k : Bytes) (hlk : k.length = len) :
    outs E noFaults ⟨openTrie none, D⟩ (ops ++ [.reopen L g, .get k, .hash]) =
      expect E [] ops ++ [.done true, .value (spec (ops.filterMap SOp.call) k),
        .root ((newTrie.run (ops.filterMap SOp.call)).hash E.H E.R E.vh)] := by
  have hexp : ∀ (ops : List (SOp V)) (h : List (Op V)), expect E h (ops ++ [.reopen L g, .get k, .hash]) =
      expect E h ops ++ [.done true, .value (spec (h ++ ops.filterMap SOp.call) k),
        .root ((newTrie.run (h ++ ops.filterMap SOp.call)).hash E.H E.R E.vh)] := by
    intro ops
    induction ops with
    | nil => intro h; simp [expect, answer, SOp.call]
    | cons op ops ih =>
      intro h
      rw [List.cons_append, expect, ih, expect, filterMap_toList, ← List.append_assoc]
      rfl
  have halong : ∀ a, along (ops ++ [.reopen L g, .get k, .hash]) a → along ops a := by
    rintro a ⟨pre, hp, rfl⟩
    by_cases hl : pre.length ≤ ops.length
    · exact ⟨pre, List.prefix_of_prefix_length_le hp (List.prefix_append _ _) hl, rfl⟩
    · obtain ⟨r, hr⟩ := List.prefix_of_prefix_length_le (List.prefix_append ops _) hp (by omega)
      refine ⟨ops, List.prefix_refl _, ?_⟩
      rw [← hr, List.prefix_append_right_inj] at hp
      have : ∀ o ∈ r, o.call = none := by
        intro o ho
        have := hp.subset ho
        simp at this
        rcases this with rfl | rfl | rfl <;> rfl
      rw [← hr, List.filterMap_append, List.filterMap_eq_nil_iff.2 this, List.append_nil]
  rw [C07_transparent_fixed hE len hlen, hexp, List.nil_append]
  · intro op ho k' hk'
    rcases List.mem_append.1 ho with ho | ho
    · exact hk op ho k' hk'
    · simp at ho
      rcases ho with rfl | rfl | rfl <;> simp [SOp.key] at hk'
      subst hk'
      exact hlk
  · refine ⟨?_, fun a b ha hb => hN.digest a b (halong a ha) (halong b hb)⟩
    intro k x k' y h1 h2
    exact hN.values k x k' y (by simpa using h1) (by simpa using h2)
  · exact hD

/-! ### C08 -/

/-- `maxGenSize` and `maxValLength` (`/repo/trie/trie.go:33-38`). -/
def realLimits : Limits := ⟨100, 4096⟩

/-- What is claimed of `Commit`: if it returns nil, then a trie opened from the root hash answers like the map, whichever
`Save` calls fail. -/
def CommitLaw (V : Type) : Prop := ∀ (E : Env V), E.Lawful → ∀ (len : Nat),
  (∀ k : Bytes, k.length ≤ len → (E.R.enc k).length ≤ 60) → ∀ (ops : List (SOp V)),
  (∀ op ∈ ops, ∀ k, op.key = some k → k.length = len) → NoCollision E ops → ∀ (D : Disk), D.ok → ∀ (F : Faults) (k : Bytes),
  k.length = len →
  let s := srun E noFaults ⟨openTrie none, D⟩ ops
  let r := s.t.commit E F realLimits s.D
  r.2.2 = true → ((openTrie (some (r.1.hash E).2)).get E r.2.1 k).2 = spec (ops.filterMap SOp.call) k

/-- **C08, what holds.** If no `Save` fails for a node or a value of the trees passed through, then everything is
transparent, as in C07. -/
theorem C08_no_failure_partial (hE : E.Lawful) (K : Bytes → Prop) (hK : PrefixFree K) (ops : List (SOp V))
    (hk : ∀ op ∈ ops, ∀ k, op.key = some k → K k) (hA : Apart E (along ops)) (F : Faults)
    (hF : Harmless E (nodesOf (along ops)) F) (D : Disk) (hD : D.ok) :
    outs E F ⟨openTrie none, D⟩ ops = expect E [] ops :=
  (outs_spec hE hA hF ops [] _ ⟨hD, rep_openNil⟩ fun pre hp => ⟨pre, hp, rfl⟩).1.trans
    (expectT_clear ops [] inv_nil (clearOps_prefixFree hK ops [] (by simp) hk))

/-- **C08, what holds.** If no `Save` fails for a node or a value of the trees passed through, then after a commit every
node and every value of the trie is in the storage, or there is nothing to store. -/
theorem C08_stored_partial (hE : E.Lawful) (K : Bytes → Prop) (hK : PrefixFree K) (ops : List (SOp V))
    (hk : ∀ op ∈ ops, ∀ k, op.key = some k → K k) (hA : Apart E (along ops)) (F : Faults)
    (hF : Harmless E (nodesOf (along ops)) F) (D : Disk) (hD : D.ok) (L : Limits) :
    let s := srun E F ⟨openTrie none, D⟩ ops
    (s.t.commit E F L s.D).2.2 = true ∧
      ((∀ k, spec (ops.filterMap SOp.call) k = none) ∨
        Stored E (s.t.commit E F L s.D).2.1 (newTrie.run (ops.filterMap SOp.call)).root) := by
  have hs := (outs_spec hE hA hF ops [] ⟨openTrie none, D⟩ ⟨hD, rep_openNil⟩ fun pre hp => ⟨pre, hp, rfl⟩).2
  rw [List.nil_append] at hs
  have hinv := clear_inv ops [] inv_nil (clearOps_prefixFree hK ops [] (by simp) hk)
  rw [List.nil_append] at hinv
  obtain ⟨h1, -, -, -, h4⟩ := commit_step hE (hA.ghost hE) hF L hs.disk hs.rep hinv.wf
    ⟨hinv.wf.isSome, _, ⟨ops, List.prefix_refl _, rfl⟩, Sub.refl _⟩
  refine ⟨h1, ?_⟩
  cases hr : (newTrie.run (ops.filterMap SOp.call)).root with
  | nil => have := hinv.wf; rw [hr] at this; exact this.elim
  | mk p v c =>
    by_cases he : isEmpty p v c = true
    · left
      intro k
      have := hinv.look k
      rw [hr, lookup_empty he] at this
      exact this.symm
    · right
      rw [← hr]
      exact h4 p v c hr (by simpa using he)

theorem saveTo_some (f : Option (Bytes → Option Bytes)) (bad : Bytes → Bool) (h b : Bytes) (hf : f.isSome = true) :
    (saveTo f bad h b).1.isSome = true := by
  cases f with
  | none => simp at hf
  | some s => rw [saveTo]; split <;> rfl

theorem saveHere_ok (F : Faults) (L : Limits) (g : UInt64) (D : Disk) (i : Info V) (c : Nib → BNode V) (hD : D.ok) :
    (saveHere E F L g D i c).2.1.ok := by
  have hv : (saveValue F D (valueHashed E i)).1.ok := by
    rw [saveValue]
    split
    · exact ⟨hD.1, saveTo_some _ _ _ _ hD.2⟩
    · exact hD
  rw [saveHere]
  split
  · rw [saveOne]
    simp only
    split
    · exact hv
    · split
      · exact hv
      · split
        · exact ⟨saveTo_some _ _ _ _ hv.1, hv.2⟩
        · exact ⟨saveTo_some _ _ _ _ hv.1, hv.2⟩
  · split
    · exact hD
    · split
      · exact hD
      · exact hD

theorem saveFold_ok (F : Faults) (L : Limits) (g : UInt64) (c : Nib → BNode V)
    (ih : ∀ j D, D.ok → (save E F L g (c j) D).2.1.ok) (l : List Nib) : ∀ (s : (Nib → BNode V) × Disk), s.2.ok →
    (l.foldl (fun (s : (Nib → BNode V) × Disk) j =>
      if (c j).isSome then
        let x := save E F L g (c j) s.2
        (setKid s.1 j x.1, x.2.1)
      else s) s).2.ok := by
  induction l with
  | nil => intro s hs; exact hs
  | cons k l ihl =>
    intro s hs
    rw [List.foldl_cons]
    apply ihl
    split
    · exact ih k _ hs
    · exact hs

theorem save_ok (F : Faults) (L : Limits) (g : UInt64) (b : BNode V) : ∀ D : Disk, D.ok → (save E F L g b D).2.1.ok := by
  induction b with
  | nil => intro D hD; exact hD
  | mk i c ih =>
    intro D hD
    rw [save]
    exact saveHere_ok F L g _ i _ (saveFold_ok F L g c ih nibbles (c, D) hD)

/-- **C08, what holds.** When the root has been changed, a commit that returns nil has stored the root node. -/
theorem C08_root_partial (F : Faults) (L : Limits) (D : Disk) (hD : D.ok) (t : BTrie V) (i : Info V) (c : Nib → BNode V)
    (ht : t.root = .mk i c) (hd : i.dirty = true) (hok : (t.commit E F L D).2.2 = true) :
    ∃ i' c' f b, (t.commit E F L D).1.root = .mk i' c' ∧ (t.commit E F L D).2.1.nodes = some f ∧
      f (i'.hash.getD []) = some b := by
  have key : ∀ (D : Disk) (c : Nib → BNode V), D.ok → (saveHere E F L t.gen D i c).2.2 = true →
      ∃ i' c' f b, (saveHere E F L t.gen D i c).1 = .mk i' c' ∧ (saveHere E F L t.gen D i c).2.1.nodes = some f ∧
        f (i'.hash.getD []) = some b := by
    intro D c hD hok
    rw [saveHere, if_pos hd] at hok ⊢
    have hv : (saveValue F D (valueHashed E i)).1.nodes = D.nodes := by
      rw [saveValue]; split <;> rfl
    rw [saveOne] at hok ⊢
    simp only at hok ⊢
    split at hok
    · simp at hok
    · rename_i h1
      rw [if_neg h1]
      split at hok
      · simp at hok
      · rename_i i2 c2 h2
        split at hok
        · simp at hok
        · rename_i h3
          simp only [if_neg h3]
          obtain ⟨fn, hfn⟩ := Option.isSome_iff_exists.1 hD.1
          simp only [hv, hfn, saveTo] at h3 ⊢
          split at h3
          · simp at h3
          · rename_i h4
            exact ⟨_, _, _, serB E (valueHashed E i) c, rfl, by rw [if_neg h4], by simp⟩
  rw [BTrie.commit, ht, save] at hok ⊢
  exact key _ _ (saveFold_ok F L t.gen c (fun j => save_ok F L t.gen (c j)) nibbles (c, D) hD) hok

/-! ### Concrete cases -/

/-- Byte strings as values, over the stand-ins for go-rtl and the digests. -/
def toyE : Env Bytes := ⟨toyH, toyRtl, id, some, demoVh⟩

theorem toyE_lawful : toyE.Lawful := ⟨toyH_len, toyRtl_lawful, fun _ => toyH_len _, fun _ => rfl⟩

/-- An empty storage. -/
def freshDisk : Disk := ⟨some fun _ => none, some fun _ => none⟩

theorem freshDisk_ok : freshDisk.ok := ⟨rfl, rfl⟩

/-- The trees along a sequence of calls, as a list. -/
def alongList (ops : List (SOp V)) : List (Node V) :=
  (List.range (ops.length + 1)).map fun n => (newTrie.run ((ops.take n).filterMap SOp.call)).root

theorem along_mem {ops : List (SOp V)} {a : Node V} (h : along ops a) : a ∈ alongList ops := by
  obtain ⟨pre, hp, rfl⟩ := h
  refine List.mem_map.2 ⟨pre.length, ?_, ?_⟩
  · have := hp.length_le
    rw [List.mem_range]
    omega
  · rw [← List.prefix_iff_eq_take.1 hp]

/-- The values put by a sequence of calls. -/
def putValues (ops : List (SOp V)) : List V := ops.filterMap fun
  | .put _ x => some x
  | _ => none

theorem noCollision_of {ops : List (SOp V)}
    (h1 : ∀ x ∈ putValues ops, ∀ y ∈ putValues ops, E.vh x = E.vh y → x = y)
    (h2 : ∀ x ∈ (alongList ops).flatMap (inputs E.H E.R E.vh), ∀ y ∈ (alongList ops).flatMap (inputs E.H E.R E.vh),
      E.H x = E.H y → x = y) : NoCollision E ops := by
  have hm : ∀ k x, SOp.put k x ∈ ops → x ∈ putValues ops := fun k x h => List.mem_filterMap.2 ⟨_, h, rfl⟩
  refine ⟨fun k x k' y hx hy => h1 x (hm _ _ hx) y (hm _ _ hy), ?_⟩
  rintro a b ha hb ⟨x, hx, y, hy, hne, he⟩
  exact hne (h2 x (List.mem_flatMap.2 ⟨a, along_mem ha, hx⟩) y (List.mem_flatMap.2 ⟨b, along_mem hb, hy⟩) he)

/-- As `No64`, decided. -/
def no64b (R : Rtl) : Node V → Bool
  | .nil => true
  | .mk p v c => ((headerOf p v c).ser R).length != 64 && nibbles.all fun i => no64b R (c i)

theorem no64_of {R : Rtl} {n : Node V} (h : no64b R n = true) : No64 R n := by
  induction n with
  | nil => trivial
  | mk p v c ih =>
    rw [no64b, Bool.and_eq_true, List.all_eq_true] at h
    exact ⟨by simpa using h.1, fun i => ih i (h.2 i (mem_nibbles i))⟩

theorem put_of_lookup (h : List (Op V)) (q : List Nib) (x : V)
    (hx : lookup ((newTrie (V := V)).run h).root q = some x) : ∃ k, Op.put k x ∈ h := by
  induction h using List.reverseRecOn with
  | nil =>
    rw [show lookup ((newTrie (V := V)).run []).root q = none from
      lookup_empty ((isEmpty_iff _ _ _).2 ⟨rfl, rfl, fun _ => rfl⟩) q] at hx
    simp at hx
  | append_singleton h op ih =>
    have hw := wf_run h
    rw [run_concat] at hx
    have old : lookup ((newTrie (V := V)).run h).root q = some x → ∃ k', Op.put k' x ∈ h ++ [op] := by
      intro h'
      obtain ⟨k', hk'⟩ := ih h'
      exact ⟨k', List.mem_append.2 (Or.inl hk')⟩
    cases op with
    | put k y =>
      have := lookup_insert ((newTrie (V := V)).run h).root hw.isSome (keyToPrefix k) y q
      have hx : lookup (insert ((newTrie (V := V)).run h).root (keyToPrefix k) y).node q = some x := hx
      rw [this] at hx
      split at hx
      · cases hx; exact ⟨k, by simp⟩
      · exact old hx
    | del k =>
      have hx : lookup (afterDelete ((newTrie (V := V)).run h).root (keyToPrefix k)) q = some x := hx
      rw [(delete_root hw (keyToPrefix k)).2.1] at hx
      split at hx
      · simp at hx
      · exact old hx

/-- The side conditions hold if a finite check succeeds. -/
theorem apart_of {ops : List (SOp V)}
    (h1 : ∀ x ∈ putValues ops, ∀ y ∈ putValues ops, E.vh x = E.vh y → x = y)
    (h2 : ∀ x ∈ (alongList ops).flatMap (inputs E.H E.R E.vh), ∀ y ∈ (alongList ops).flatMap (inputs E.H E.R E.vh),
      E.H x = E.H y → x = y)
    (h3 : ∀ a ∈ alongList ops, no64b E.R a = true) : Apart E (along ops) := by
  have hN := noCollision_of h1 h2
  have hv : ∀ {a q x}, along ops a → lookup a q = some x → ∃ k, SOp.put k x ∈ ops := by
    rintro a q x ⟨pre, hp, rfl⟩ hx
    obtain ⟨k, hk⟩ := put_of_lookup _ q x hx
    obtain ⟨op, ho, hc⟩ := List.mem_filterMap.1 hk
    refine ⟨k, hp.subset ?_⟩
    cases op <;> simp [SOp.call] at hc
    obtain ⟨rfl, rfl⟩ := hc
    exact ho
  refine ⟨⟨[], List.nil_prefix, rfl⟩, ?_, fun ha => no64_of (h3 _ (along_mem ha)), fun ha hb => hN.digest _ _ ha hb⟩
  intro a b q r x y ha hb hx hy
  obtain ⟨k, hk⟩ := hv ha hx
  obtain ⟨k', hk'⟩ := hv hb hy
  exact hN.values _ _ _ _ hk hk'

/-- Three keys under two branches, a commit, everything collapsed, a deletion, a reload. -/
def demoCalls : List (SOp Bytes) :=
  [.put [0x12, 0x34] [1], .put [0x12, 0x35] [2], .commit realLimits, .fold (fun _ => true) (fun _ => true),
    .put [0x52, 0x35] [3], .del [0x12, 0x34], .reopen realLimits 7, .get [0x12, 0x35]]

theorem demoCalls_apart : NoCollision toyE demoCalls := by
  apply noCollision_of
  · decide +kernel
  · decide +kernel

/-- The hypotheses of C07 hold for a run that branches, collapses and merges. -/
example : outs toyE noFaults ⟨openTrie none, freshDisk⟩ demoCalls = expect toyE [] demoCalls :=
  C07_transparent_fixed toyE_lawful 2 toyRtl_short demoCalls
    (by simp [demoCalls, SOp.key]) demoCalls_apart _ freshDisk_ok

/-- The model computes the same for further keys. -/
example : outs toyE noFaults ⟨openTrie none, freshDisk⟩ (demoCalls ++ [.get [0x12, 0x34], .get [0x52, 0x35]]) =
    [.changed true, .changed true, .done true, .done true, .changed true, .deleted true (some [1]), .done true,
      .value (some [2]), .value none, .value (some [3])] := by
  decide +kernel

/-- **C08, refuted.** A failing `Save` of a child is dropped: `Commit` returns nil, and the trie opened from the root hash
has lost the keys below that child. -/
theorem C08_refuted : ¬ CommitLaw Bytes := by
  intro h
  have := h toyE toyE_lawful 2 toyRtl_short [.put [0x12, 0x34] [1], .put [0x12, 0x35] [2]] (by simp [SOp.key])
    (noCollision_of (by decide +kernel) (by decide +kernel)) freshDisk freshDisk_ok
    ⟨fun k => k == nodeHash toyH toyRtl demoVh (leaf [] [1]), fun _ => false⟩ [0x12, 0x34] rfl (by decide +kernel)
  revert this
  decide +kernel

/-- The other key survives, and a value that is not saved is lost the same way. -/
example :
    let s := srun toyE noFaults ⟨openTrie none, freshDisk⟩ [.put [0x12, 0x34] [1], .put [0x12, 0x35] [2]]
    let r := s.t.commit toyE ⟨fun _ => false, fun k => k == demoVh [1]⟩ realLimits s.D
    r.2.2 = true ∧ ((openTrie (some (r.1.hash toyE).2)).get toyE r.2.1 [0x12, 0x34]).2 = none ∧
      ((openTrie (some (r.1.hash toyE).2)).get toyE r.2.1 [0x12, 0x35]).2 = some [2] := by
  decide +kernel

/-- A failing `Save` of the root is reported. -/
example :
    let s := srun toyE noFaults ⟨openTrie none, freshDisk⟩ [.put [0x12, 0x34] [1], .put [0x12, 0x35] [2]]
    (s.t.commit toyE ⟨fun k => k == hashOf toyE s.t.root, fun _ => false⟩ realLimits s.D).2.2 = false := by
  decide +kernel

/-- The number of keys is not part of what a root hash restores: a reopened trie counts from zero. -/
theorem C07_count_refuted : ∃ ops : List (SOp Bytes), NoCollision toyE ops ∧
    (srun toyE noFaults ⟨openTrie none, freshDisk⟩ ops).t.count = 2 ∧
    (srun toyE noFaults ⟨openTrie none, freshDisk⟩ (ops ++ [.reopen realLimits 1])).t.count = 0 ∧
    (srun toyE noFaults ⟨openTrie none, freshDisk⟩ (ops ++ [.reopen realLimits 1, .del [0x12, 0x34]])).t.count = -1 :=
  ⟨[.put [0x12, 0x34] [1], .put [0x12, 0x35] [2]], noCollision_of (by decide +kernel) (by decide +kernel),
    by decide +kernel, by decide +kernel, by decide +kernel⟩

/-! ### C98: a trie without storage adapters -/

/-- What one would expect of a trie without storage: commits change nothing that can be observed. -/
def NoStorageLaw (V : Type) : Prop := ∀ (E : Env V), E.Lawful → ∀ (len : Nat),
  (∀ k : Bytes, k.length ≤ len → (E.R.enc k).length ≤ 60) → ∀ (ops : List (SOp V)),
  (∀ op ∈ ops, ∀ k, op.key = some k → k.length = len) → NoCollision E ops →
  (∀ op ∈ ops, (∃ k, op = .get k) ∨ (∃ k x, op = .put k x) ∨ (∃ k, op = .del k) ∨ op = .hash ∨ op = .commit realLimits) →
  outs E noFaults ⟨openTrie none, ⟨none, none⟩⟩ ops = expect E [] ops

/-- As `toyE`, with an encoding of values that takes more than 4096 bytes. -/
def bulkyE : Env Bytes := ⟨toyH, toyRtl, fun x => List.replicate 4097 0 ++ x, fun b => some (b.drop 4097), demoVh⟩

theorem bulkyE_lawful : bulkyE.Lawful := by
  refine ⟨toyH_len, toyRtl_lawful, fun _ => toyH_len _, fun x => ?_⟩
  show some ((List.replicate 4097 0 ++ x).drop 4097) = some x
  rw [List.drop_left' (List.length_replicate ..)]

set_option maxRecDepth 100000 in
/-- **C98, refuted.** Without a value adapter, the second commit drops every value that takes more than 4096 bytes. -/
theorem C98_refuted : ¬ NoStorageLaw Bytes := by
  intro h
  have := h bulkyE bulkyE_lawful 2 toyRtl_short
    [.put [0x12, 0x34] [1], .commit realLimits, .commit realLimits, .get [0x12, 0x34]]
    (by simp [SOp.key]) (noCollision_of (by decide +kernel) (by decide +kernel)) (by simp)
  revert this
  decide +kernel

/-- **C98, what holds.** As long as nothing is committed, the storage is irrelevant, present or not. -/
theorem C98_uncommitted_partial (hE : E.Lawful) (K : Bytes → Prop) (hK : PrefixFree K) (ops : List (SOp V))
    (hops : ∀ op ∈ ops, op.reads = true) (hk : ∀ op ∈ ops, ∀ k, op.key = some k → K k) (F : Faults) (D : Disk) :
    outs E F ⟨openTrie none, D⟩ ops = expect E [] ops := by
  have : ∀ (ops : List (SOp V)) (h : List (Op V)) (s : Sess V), (∀ op ∈ ops, op.reads = true) →
      Rep E s.D s.t.root (newTrie.run h).root → outs E F s ops = expectT E (newTrie.run h) ops := by
    intro ops
    induction ops with
    | nil => intro h s _ _; rfl
    | cons op ops ih =>
      intro h s hops hr
      obtain ⟨h1, h2, h4⟩ := sstep_reads hE F hr op (hops op List.mem_cons_self)
      rw [outs, expectT, h1, ih _ _ (fun o ho => hops o (List.mem_cons_of_mem _ ho)) (h2 ▸ h4), run_append]
  exact (this ops [] _ hops rep_openNil).trans (expectT_clear ops [] inv_nil (clearOps_prefixFree hK ops [] (by simp) hk))

example : outs toyE noFaults ⟨openTrie none, ⟨none, none⟩⟩ [.put [0x12, 0x34] [1], .put [0x12, 0x35] [2], .get [0x12, 0x34]] =
    [.changed true, .changed true, .value (some [1])] := by
  rw [C98_uncommitted_partial toyE_lawful _ (prefixFree_fixed 2) _ (by simp [SOp.reads]) (by simp [SOp.key])]
  decide +kernel

end Verif.Trie.Store

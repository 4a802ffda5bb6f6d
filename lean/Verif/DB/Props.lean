import Verif.DB.Model

/-!
# Properties of the databases (C32–C38, C92, C96)

Specification: a database stands for a map from byte strings to values.  What the map contains after a
history is said without running anything: the last accepted command about a key decides
(`after`).  The answers of a history of calls are then given by `answers`.
-/

namespace Verif.DB

/-! ## Specification -/

/-- Calls on a database; `batch cs` means: `NewBatch`, add the commands `cs`, `Batch`. -/
inductive Op
  | put (k v : Option Bytes)
  | del (k : Option Bytes)
  | get (k : Option Bytes)
  | has (k : Option Bytes)
  | batch (cs : List Cmd)
  deriving DecidableEq

/-- What a call returns. -/
inductive Out
  | done (r : Res Unit)
  | value (r : Res (Option Bytes))
  | found (r : Res Bool)
  deriving DecidableEq

/-- The commands a call contains. -/
def Op.cmds : Op → List Cmd
  | .put k v => [.put k v]
  | .del k => [.del k]
  | .get _ => []
  | .has _ => []
  | .batch cs => cs

/-- What a command says about the content at `k`: nothing, a new value or removal. `acc` tells which
puts are accepted. -/
def effect (acc : Option Bytes → Option Bytes → Bool) (k : Bytes) : Cmd → Option (Option Bytes)
  | .put k' v => if acc k' v = true ∧ keyOf k' = k then some (some (keyOf v)) else none
  | .del k' => if keyOf k' = k then some none else none

/-- The content after the commands `cs`: the last command that says something about a key decides. -/
def after (acc : Option Bytes → Option Bytes → Bool) (m : Bytes → Option Bytes) (cs : List Cmd)
    (k : Bytes) : Option Bytes :=
  (cs.reverse.findSome? (effect acc k)).getD (m k)

/-- The answer of a map with content `m` to one call. -/
def answer (acc : Option Bytes → Option Bytes → Bool) (m : Bytes → Option Bytes) : Op → Out
  | .put k v => .done (if acc k v = true then .ok () else .err)
  | .del _ => .done (.ok ())
  | .get k => .value (.ok (m (keyOf k)))
  | .has k => .found (.ok (m (keyOf k)).isSome)
  | .batch _ => .done (.ok ())

/-- The answers of a map to a history of calls. -/
def answers (acc : Option Bytes → Option Bytes → Bool) (m : Bytes → Option Bytes) : List Op → List Out
  | [] => []
  | op :: ops => answer acc m op :: answers acc (after acc m op.cmds) ops

/-- In-memory databases accept a put exactly when neither key nor value is nil. -/
def nonNil (k v : Option Bytes) : Bool := k.isSome && v.isSome

/-! ## Running the model -/

/-- One call on a model database. -/
def Database.step {σ : Type} (db : Database σ) (s : σ) : Op → σ × Out
  | .put k v => ((db.put s k v).1, .done (db.put s k v).2)
  | .del k => ((db.del s k).1, .done (db.del s k).2)
  | .get k => ((db.get s k).1, .value (db.get s k).2)
  | .has k => ((db.has s k).1, .found (db.has s k).2)
  | .batch cs =>
    match (db.newBatch s).addAll cs with
    | .ok b => ((db.batch s b).1, .done (db.batch s b).2)
    | .err => (s, .done .err)
    | .panic => (s, .done .panic)

/-- A history of calls on a model database. -/
def Database.run {σ : Type} (db : Database σ) (s : σ) : List Op → σ × List Out
  | [] => (s, [])
  | op :: ops => ((db.run (db.step s op).1 ops).1, (db.step s op).2 :: (db.run (db.step s op).1 ops).2)

/-- The database answers every call among `ops` as the map `abs` of its state. -/
structure Behaves {σ : Type} (db : Database σ) (ops : Op → Prop)
    (acc : Option Bytes → Option Bytes → Bool) (abs : σ → Bytes → Option Bytes) (Inv : σ → Prop) :
    Prop where
  out : ∀ s op, Inv s → ops op → (db.step s op).2 = answer acc (abs s) op
  next : ∀ s op, Inv s → ops op → abs (db.step s op).1 = after acc (abs s) op.cmds
  inv : ∀ s op, Inv s → ops op → Inv (db.step s op).1

/-! ## The content after commands -/

theorem after_nil (acc m) : after acc m [] = m := by
  funext k; simp [after]

theorem after_append (acc m) (a b : List Cmd) : after acc m (a ++ b) = after acc (after acc m a) b := by
  funext k
  simp only [after, List.reverse_append, List.findSome?_append]
  cases b.reverse.findSome? (effect acc k) <;> simp

theorem after_cons (acc m) (c : Cmd) (cs : List Cmd) :
    after acc m (c :: cs) = after acc (after acc m [c]) cs := by
  rw [← after_append]; rfl

theorem after_put (acc m) (k v : Option Bytes) : after acc m [.put k v] =
    fun x => if acc k v = true ∧ keyOf k = x then some (keyOf v) else m x := by
  funext x
  by_cases h : acc k v = true ∧ keyOf k = x <;> simp [after, effect, h]

theorem after_del (acc m) (k : Option Bytes) : after acc m [.del k] =
    fun x => if keyOf k = x then none else m x := by
  funext x
  by_cases h : keyOf k = x <;> simp [after, effect, h]

theorem Behaves.run_spec {σ : Type} {db : Database σ} {ops acc abs Inv} (h : Behaves db ops acc abs Inv) :
    ∀ (hist : List Op) (s : σ), Inv s → (∀ op ∈ hist, ops op) →
      (db.run s hist).2 = answers acc (abs s) hist ∧
      abs (db.run s hist).1 = after acc (abs s) (hist.flatMap Op.cmds) ∧ Inv (db.run s hist).1 := by
  intro hist
  induction hist with
  | nil => intro s hs _; exact ⟨rfl, by simp [Database.run, after_nil], hs⟩
  | cons op rest ih =>
    intro s hs ho
    have h1 := ho op (by simp)
    obtain ⟨i1, i2, i3⟩ := ih (db.step s op).1 (h.inv s op hs h1) (fun o hm => ho o (by simp [hm]))
    refine ⟨?_, ?_, i3⟩
    · simp only [Database.run, answers]
      rw [i1, h.out s op hs h1, h.next s op hs h1]
    · simp only [Database.run, List.flatMap_cons]
      rw [i2, h.next s op hs h1, after_append]

/-! ## Association lists -/

theorem load_remove {α : Type} (m : Assoc α) (k x : Bytes) :
    load (remove m k) x = if k = x then none else load m x := by
  induction m with
  | nil => simp [remove, load]
  | cons e rest ih =>
    obtain ⟨k', v⟩ := e
    by_cases hk : k' = k
    · subst hk
      have hrm : remove ((k', v) :: rest) k' = remove rest k' := by simp [remove]
      rw [hrm, ih]
      by_cases hx : k' = x
      · simp [hx]
      · simp [hx, load]
    · have hrm : remove ((k', v) :: rest) k = (k', v) :: remove rest k := by simp [remove, hk]
      rw [hrm]
      by_cases hx : k' = x
      · subst hx; simp [load]; intro h; exact absurd h.symm hk
      · simp only [load, hx, if_false]; exact ih

theorem load_store {α : Type} (m : Assoc α) (k x : Bytes) (v : α) :
    load (store m k v) x = if k = x then some v else load m x := by
  by_cases h : k = x
  · simp [store, load, h]
  · simp [store, load, h, load_remove]

theorem load_filter {α : Type} (m : Assoc α) (p : Bytes → Bool) (x : Bytes) :
    load (m.filter (fun e => p e.1)) x = if p x = true then load m x else none := by
  induction m with
  | nil => simp [load]
  | cons e rest ih =>
    obtain ⟨k', v⟩ := e
    by_cases hp : p k' = true
    · by_cases hx : k' = x
      · subst hx; simp [hp, load]
      · simp only [List.filter_cons, hp, if_true, load, hx, if_false]; exact ih
    · by_cases hx : k' = x
      · subst hx
        simp only [List.filter_cons, hp]
        simp only [Bool.false_eq_true, if_false]
        rw [ih]; simp [hp]
      · simp only [List.filter_cons, hp, load, hx, if_false]
        simpa using ih

theorem load_removeAll {α : Type} (ks : List Bytes) : ∀ (m : Assoc α) (x : Bytes),
    load (removeAll m ks) x = if x ∈ ks then none else load m x := by
  induction ks with
  | nil => intro m x; simp [removeAll]
  | cons k rest ih =>
    intro m x
    rw [removeAll, ih, load_remove]
    by_cases h1 : x ∈ rest
    · simp [h1]
    · by_cases h2 : k = x
      · simp [h2]
      · simp [h1, h2, Ne.symm h2]

/-! ## C32: the in-memory database is a map -/

theorem goCopy_full (b : Bytes) : goCopy (List.replicate b.length 0) b = b := by
  simp [goCopy]

theorem copySlice_id (v : Option Bytes) : copySlice v = v := by
  cases v <;> simp [copySlice, goCopy_full]

theorem memPut_fst (m : Assoc Bytes) (k v : Option Bytes) :
    load (memPut m k v).1 = after nonNil (load m) [.put k v] := by
  rw [after_put]; funext x
  unfold memPut
  rw [copySlice_id, copySlice_id]
  cases k <;> cases v <;> simp [nonNil, load_store, keyOf]

theorem memDel_spec (m : Assoc Bytes) (k : Option Bytes) :
    load (memDel m k) = after nonNil (load m) [.del k] := by
  rw [after_del]; funext x
  rw [memDel, load_remove]

theorem memCmd_spec (m : Assoc Bytes) (c : Cmd) : load (memCmd m c) = after nonNil (load m) [c] := by
  cases c with
  | put k v => exact memPut_fst m k v
  | del k => exact memDel_spec m k

theorem memCmds_spec (cs : List Cmd) : ∀ m : Assoc Bytes,
    load (cs.foldl memCmd m) = after nonNil (load m) cs := by
  induction cs with
  | nil => intro m; simp [after_nil]
  | cons c cs ih => intro m; rw [List.foldl_cons, ih, memCmd_spec, ← after_cons]

theorem addAll_mem (cs : List Cmd) : ∀ l, (Batch.mem l).addAll cs = .ok (.mem (l ++ cs)) := by
  induction cs with
  | nil => intro l; simp [Batch.addAll]
  | cons c cs ih => intro l; simp [Batch.addAll, Batch.add, ih]

theorem addAll_ldb (cs : List Cmd) : ∀ l, (Batch.ldb l).addAll cs = .ok (.ldb (l ++ cs)) := by
  induction cs with
  | nil => intro l; simp [Batch.addAll]
  | cons c cs ih => intro l; simp [Batch.addAll, Batch.add, ih]

theorem memDB_behaves : Behaves memDB (fun _ => True) nonNil load (fun _ => True) where
  out := by
    intro s op _ _
    cases op with
    | put k v =>
      simp only [Database.step, memDB, answer, memPut, copySlice_id]
      cases k <;> cases v <;> simp [nonNil]
    | del k => rfl
    | get k => simp [Database.step, memDB, answer, memGet, copySlice_id]
    | has k => rfl
    | batch cs => simp [Database.step, memDB, answer, addAll_mem, memBatch]
  next := by
    intro s op _ _
    cases op with
    | put k v => exact memPut_fst s k v
    | del k => exact memDel_spec s k
    | get k => simp [Database.step, memDB, Op.cmds, after_nil]
    | has k => simp [Database.step, memDB, Op.cmds, after_nil]
    | batch cs =>
      simp only [Database.step, memDB, addAll_mem, memBatch, List.nil_append, Op.cmds]
      exact memCmds_spec cs s
  inv := by intros; trivial

/-- C32: from an empty in-memory database, every history of calls is answered as a map answers it, and
the content is what the last accepted command about each key says. -/
theorem C32_memdb_map (hist : List Op) :
    (memDB.run [] hist).2 = answers nonNil (fun _ => none) hist ∧
    ∀ k, memDB.get (memDB.run [] hist).1 (some k) =
      ((memDB.run [] hist).1, .ok (after nonNil (fun _ => none) (hist.flatMap Op.cmds) k)) := by
  have h := memDB_behaves.run_spec hist [] trivial (fun _ _ => trivial)
  have he : load ([] : Assoc Bytes) = fun _ => none := by funext k; rfl
  rw [he] at h
  refine ⟨h.1, fun k => ?_⟩
  have h2 := congrFun h.2.1 k
  show (_, Res.ok (memGet _ _)) = _
  rw [← h2, memGet, copySlice_id]; rfl

/-- C32: a put with a nil key or value fails and changes nothing. -/
theorem C32_nil_refused (m : Assoc Bytes) (k v : Option Bytes) (h : k = none ∨ v = none) :
    memDB.put m k v = (m, .err) := by
  show memPut m k v = (m, .err)
  unfold memPut
  rw [copySlice_id, copySlice_id]
  rcases h with rfl | rfl
  · rfl
  · cases k <;> rfl

example : (memDB.run [] [.put (some [1]) (some [7]), .put (some []) (some []), .batch [.del (some [1]),
    .put (some [2]) (some [9]), .put none (some [3])], .get (some [1]), .get (some [2]), .has (some []),
    .put (some [2]) none, .has none, .get (some [2])]).2 =
    [.done (.ok ()), .done (.ok ()), .done (.ok ()), .value (.ok none), .value (.ok (some [9])),
     .found (.ok true), .done .err, .found (.ok true), .value (.ok (some [9]))] := by decide +kernel

/-! ## LDB over goleveldb, and C92: a failed batch is reported -/

theorem levelCmd_spec (m : Assoc Bytes) (c : Cmd) :
    load (levelCmd m c) = after (fun _ _ => true) (load m) [c] := by
  cases c with
  | put k v => rw [after_put]; funext x; simp [levelCmd, load_store]
  | del k => rw [after_del]; funext x; simp [levelCmd, load_remove]

theorem levelCmds_spec (cs : List Cmd) : ∀ m : Assoc Bytes,
    load (cs.foldl levelCmd m) = after (fun _ _ => true) (load m) cs := by
  induction cs with
  | nil => intro m; simp [after_nil]
  | cons c cs ih => intro m; rw [List.foldl_cons, ih, levelCmd_spec, ← after_cons]

theorem ldb_behaves : Behaves ldb (fun _ => True) (fun _ _ => true) (fun l => load l.m)
    (fun l => l.closed = false) where
  out := by
    intro s op hs _
    cases op <;> simp [Database.step, ldb, answer, Level.write, hs, addAll_ldb]
  next := by
    intro s op hs _
    cases op with
    | put k v => simp [Database.step, ldb, Level.write, hs, Op.cmds]; exact levelCmd_spec s.m _
    | del k => simp [Database.step, ldb, Level.write, hs, Op.cmds]; exact levelCmd_spec s.m _
    | get k => simp [Database.step, ldb, Op.cmds, after_nil]
    | has k => simp [Database.step, ldb, Op.cmds, after_nil]
    | batch cs =>
      simp only [Database.step, ldb, addAll_ldb, List.nil_append, Level.write, hs, Op.cmds]
      exact levelCmds_spec cs s.m
  inv := by
    intro s op hs _
    cases op <;> simp [Database.step, ldb, Level.write, hs, addAll_ldb]

/-- C32 for the LevelDB-backed database: while it is open it is a map (nil keys and values count as
empty ones). -/
theorem C32_ldb_map (l : Level) (hl : l.closed = false) (hist : List Op) :
    (ldb.run l hist).2 = answers (fun _ _ => true) (load l.m) hist ∧
    load (ldb.run l hist).1.m = after (fun _ _ => true) (load l.m) (hist.flatMap Op.cmds) := by
  have h := ldb_behaves.run_spec hist l hl (fun _ _ => trivial)
  exact ⟨h.1, h.2.1⟩

/-- A write call that returned nil has taken effect. -/
def WritesReported {σ : Type} (db : Database σ) (abs : σ → Bytes → Option Bytes) : Prop :=
  ∀ s cs, (db.step s (.batch cs)).2 = .done (.ok ()) →
    abs (db.step s (.batch cs)).1 = after (fun _ _ => true) (abs s) cs

/-- C92 is violated: after `Close`, `LDB.Batch` returns nil although nothing was written. -/
theorem C92_ldb_batch_refuted : ¬ WritesReported ldb (fun l => load l.m) := by
  intro h
  have := h ⟨true, []⟩ [.put (some [1]) (some [2])] (by decide +kernel)
  exact absurd (congrFun this [1]) (by decide +kernel)

/-- C92, what holds: single puts and deletes of a closed LevelDB database are reported as errors, and a
batch of another type is refused. -/
theorem C92_ldb_reports_partial (l : Level) (hl : l.closed = true) (k v : Option Bytes) :
    ldb.put l k v = (l, .err) ∧ ldb.del l k = (l, .err) ∧
    (∀ b, (∀ cs, b ≠ .ldb cs) → ldb.batch l b = (l, .err)) := by
  refine ⟨by simp [ldb, Level.write, hl], by simp [ldb, Level.write, hl], ?_⟩
  intro b hb
  cases b <;> simp_all [ldb]

/-- C92, what holds: the in-memory database reports every batch truthfully as long as the batch holds no
nil key or value. -/
theorem C92_mem_reports_partial (m : Assoc Bytes) (cs : List Cmd)
    (h : ∀ k v, Cmd.put k v ∈ cs → k ≠ none ∧ v ≠ none) :
    (memDB.step m (.batch cs)).2 = .done (.ok ()) ∧
    load (memDB.step m (.batch cs)).1 = after (fun _ _ => true) (load m) cs := by
  refine ⟨memDB_behaves.out m (.batch cs) trivial trivial, ?_⟩
  rw [memDB_behaves.next m (.batch cs) trivial trivial]
  funext x
  simp only [after, Op.cmds]
  congr 1
  have : ∀ c ∈ cs.reverse, effect nonNil x c = effect (fun _ _ => true) x c := by
    intro c hc
    cases c with
    | put k v =>
      obtain ⟨h1, h2⟩ := h k v (by simpa using hc)
      obtain ⟨k', rfl⟩ := Option.ne_none_iff_exists'.mp h1
      obtain ⟨v', rfl⟩ := Option.ne_none_iff_exists'.mp h2
      simp [effect, nonNil]
    | del k => rfl
  clear h
  generalize cs.reverse = l at *
  induction l with
  | nil => rfl
  | cons c l ih =>
    simp only [List.findSome?_cons, this c (by simp)]
    rw [ih (fun c hc => this c (by simp [hc]))]

/-! ## C96: `GetNilError` -/

/-- C96: on a database that behaves as a map, `GetNilError` returns the stored value when there is one
with at least one byte, and an error otherwise. -/
theorem C96_getNilError {σ : Type} {db : Database σ} {ops acc abs Inv} (h : Behaves db ops acc abs Inv)
    (s : σ) (hs : Inv s) (k : Option Bytes) (hk : ops (.get k)) :
    (∀ b, b ≠ [] → ((getNilError db s k).2 = .ok (some b) ↔ abs s (keyOf k) = some b)) ∧
    ((getNilError db s k).2 = .err ↔ abs s (keyOf k) = none ∨ abs s (keyOf k) = some []) ∧
    abs (getNilError db s k).1 = abs s := by
  have h1 : (db.get s k).2 = .ok (abs s (keyOf k)) := by
    have := h.out s (.get k) hs hk
    simpa [Database.step, answer] using this
  have h2 : abs (db.get s k).1 = abs s := by
    have := h.next s (.get k) hs hk
    simpa [Database.step, Op.cmds, after_nil] using this
  refine ⟨?_, ?_, h2⟩
  · intro b hb
    simp only [getNilError, h1]
    cases hv : abs s (keyOf k) with
    | none => simp [keyOf]
    | some v =>
      cases v with
      | nil => simp [keyOf]; exact fun h => hb h
      | cons x xs => simp [keyOf]
  · simp only [getNilError, h1]
    cases hv : abs s (keyOf k) with
    | none => simp [keyOf]
    | some v => cases v <;> simp [keyOf]

example : (getNilError memDB [([1], [5]), ([2], [])] (some [1])).2 = .ok (some [5]) ∧
    (getNilError memDB [([1], [5]), ([2], [])] (some [2])).2 = .err ∧
    (getNilError memDB [([1], [5]), ([2], [])] (some [3])).2 = .err := by decide +kernel

/-! ## C33: prefixed views -/

theorem prefixKey_eq (p k : Option Bytes) : prefixKey p k = keyOf p ++ keyOf k := by
  unfold prefixKey
  have h1 : goCopy (List.replicate ((keyOf p).length + (keyOf k).length) (0 : UInt8)) (keyOf p) =
      keyOf p ++ List.replicate (keyOf k).length 0 := by
    simp [goCopy, List.take_of_length_le]
  rw [h1, goCopyAt_of_fits _ _ _ (by simp)]
  simp

/-- `PrefixKey2` is the concatenation of its three arguments, and nested `PrefixKey`. -/
theorem C33_prefixKey2 (p q k : Option Bytes) :
    prefixKey2 p q k = keyOf p ++ keyOf q ++ keyOf k ∧
    prefixKey2 p q k = prefixKey p (some (prefixKey q k)) := by
  have h : prefixKey2 p q k = keyOf p ++ keyOf q ++ keyOf k := by
    unfold prefixKey2
    have h1 : goCopy (List.replicate ((keyOf p).length + (keyOf q).length + (keyOf k).length) (0 : UInt8))
        (keyOf p) = keyOf p ++ List.replicate ((keyOf q).length + (keyOf k).length) 0 := by
      rw [Nat.add_assoc]; simp only [goCopy, List.length_replicate, List.drop_replicate]
      rw [List.take_of_length_le (by omega), Nat.add_sub_cancel_left]
    have h2 : goCopyAt (keyOf p ++ List.replicate ((keyOf q).length + (keyOf k).length) (0 : UInt8))
        (keyOf p).length (keyOf q) = keyOf p ++ keyOf q ++ List.replicate (keyOf k).length 0 := by
      rw [goCopyAt_of_fits _ _ _ (by simp)]; simp
    have h4 : (keyOf p).length + (keyOf q).length = (keyOf p ++ keyOf q).length := by simp
    have h5 : (keyOf p ++ keyOf q ++ List.replicate (keyOf k).length (0 : UInt8)).length =
        (keyOf p ++ keyOf q).length + (keyOf k).length := by
      rw [List.length_append, List.length_replicate]
    rw [h1, h2, h4, goCopyAt_of_fits _ _ _ (Nat.le_of_eq h5.symm), List.take_left,
      List.drop_of_length_le (Nat.le_of_eq h5)]
    simp
  refine ⟨h, ?_⟩
  rw [h, prefixKey_eq, keyOf, keyOf, keyOf]
  simp [prefixKey_eq, keyOf]

theorem keyOf_newKeyPrefix (p : Option Bytes) : keyOf (newKeyPrefix p) = keyOf p := by
  unfold newKeyPrefix
  split
  · simp [keyOf, goCopy]
  · rename_i h
    have : keyOf p = [] := by
      cases hp : keyOf p with
      | nil => rfl
      | cons a l => simp [hp] at h
    rw [this]; rfl

theorem keyOf_adapterKey (p k : Option Bytes) :
    keyOf (adapterKey (newKeyPrefix p) k) = keyOf p ++ keyOf k := by
  unfold adapterKey
  split
  · rename_i h
    have := keyOf_newKeyPrefix p
    rw [h] at this
    rw [← this]; simp [keyOf]
  · rename_i b h
    show prefixKey (newKeyPrefix p) k = _
    rw [prefixKey_eq, keyOf_newKeyPrefix]

/-- A call with its keys converted. -/
def Op.mapKey (f : Option Bytes → Option Bytes) : Op → Op
  | .put k v => .put (f k) v
  | .del k => .del (f k)
  | .get k => .get (f k)
  | .has k => .has (f k)
  | .batch cs => .batch cs

/-- The calls that are not batches. -/
def Op.single : Op → Prop
  | .batch _ => False
  | _ => True

theorem keyDatabase_step {σ : Type} (db : Database σ) (f) (s : σ) (op : Op) (h : op.single) :
    (keyDatabase db f).step s op = db.step s (op.mapKey f) := by
  cases op <;> first | rfl | exact absurd h id

theorem keyPrefixed_step {σ : Type} (db : Database σ) (p) (s : σ) (op : Op) (h : op.single) :
    (keyPrefixed db p).step s op = db.step s (op.mapKey (adapterKey (newKeyPrefix p))) := by
  cases op <;> first | rfl | exact absurd h id

/-- Key conversions under which a converted database is again a map: keys with different strings stay
different and the choice between a nil and an empty key does not matter. -/
def KeyInjective (f : Option Bytes → Option Bytes) : Prop :=
  ∀ a b, keyOf (f a) = keyOf (f b) ↔ keyOf a = keyOf b

theorem mapKey_behaves {σ : Type} {db : Database σ} {acc abs Inv}
    (h : Behaves db Op.single acc abs Inv) (f : Option Bytes → Option Bytes) (hf : KeyInjective f)
    (view : Database σ) (hv : ∀ s op, op.single → view.step s op = db.step s (op.mapKey f)) :
    Behaves view Op.single (fun k v => acc (f k) v) (fun s k => abs s (keyOf (f (some k)))) Inv where
  out := by
    intro s op hs ho
    have hm : (op.mapKey f).single := by cases op <;> exact ho
    rw [hv s op ho, h.out s _ hs hm]
    have hk : ∀ k, keyOf (f k) = keyOf (f (some (keyOf k))) := fun k => (hf _ _).mpr rfl
    cases op with
    | put k v => rfl
    | del k => rfl
    | get k => simp only [Op.mapKey, answer]; rw [hk k]
    | has k => simp only [Op.mapKey, answer]; rw [hk k]
    | batch cs => exact absurd ho id
  next := by
    intro s op hs ho
    have hm : (op.mapKey f).single := by cases op <;> exact ho
    funext x
    rw [hv s op ho, h.next s _ hs hm]
    cases op with
    | put k v =>
      simp only [Op.mapKey, Op.cmds, after_put]
      simp only [hf k (some x)]
      rfl
    | del k =>
      simp only [Op.mapKey, Op.cmds, after_del]
      simp only [hf k (some x)]
      rfl
    | get k => simp [Op.mapKey, Op.cmds, after_nil]
    | has k => simp [Op.mapKey, Op.cmds, after_nil]
    | batch cs => exact absurd ho id
  inv := by
    intro s op hs ho
    have hm : (op.mapKey f).single := by cases op <;> exact ho
    rw [hv s op ho]
    exact h.inv s _ hs hm

theorem adapterKey_injective (p : Option Bytes) : KeyInjective (adapterKey (newKeyPrefix p)) := by
  intro a b
  rw [keyOf_adapterKey, keyOf_adapterKey]
  exact ⟨fun h => List.append_cancel_left h, fun h => by rw [h]⟩

/-- C33: a prefixed view of a database that behaves as a map behaves as a map of its own, whose content
at `k` is that of the database at `prefix ++ k`. -/
theorem C33_view_is_map {σ : Type} {db : Database σ} {acc abs Inv}
    (h : Behaves db Op.single acc abs Inv) (p : Option Bytes) :
    Behaves (keyPrefixed db p) Op.single (fun k v => acc (adapterKey (newKeyPrefix p) k) v)
      (fun s k => abs s (keyOf p ++ k)) Inv := by
  have := mapKey_behaves h (adapterKey (newKeyPrefix p)) (adapterKey_injective p) (keyPrefixed db p)
    (keyPrefixed_step db p)
  have he : (fun s k => abs s (keyOf (adapterKey (newKeyPrefix p) (some k)))) =
      fun s k => abs s (keyOf p ++ k) := by
    funext s k; rw [keyOf_adapterKey]; rfl
  rwa [he] at this

/-- An interleaved history of calls on two views of one database: `false` calls go to the first view. -/
def runTwo {σ : Type} (v w : Database σ) (s : σ) : List (Bool × Op) → σ × List (Bool × Out)
  | [] => (s, [])
  | (t, op) :: rest =>
    ((runTwo v w ((if t then w else v).step s op).1 rest).1,
      (t, ((if t then w else v).step s op).2) :: (runTwo v w ((if t then w else v).step s op).1 rest).2)

/-- The entries of an interleaved list that belong to one side. -/
def side {α : Type} (t : Bool) (l : List (Bool × α)) : List α := (l.filter (fun e => e.1 == t)).map (·.2)

/-- A command under the prefix `p` says nothing about keys that do not start with `p`. -/
theorem view_frame {σ : Type} {db : Database σ} {acc abs Inv} (h : Behaves db Op.single acc abs Inv)
    (p : Option Bytes) (s : σ) (hs : Inv s) (op : Op) (ho : op.single) (x : Bytes)
    (hx : ¬ keyOf p <+: x) : abs ((keyPrefixed db p).step s op).1 x = abs s x := by
  have hm : (op.mapKey (adapterKey (newKeyPrefix p))).single := by
    cases op <;> exact ho
  rw [keyPrefixed_step db p s op ho, h.next s _ hs hm]
  have hne : ∀ k : Option Bytes, keyOf (adapterKey (newKeyPrefix p) k) ≠ x := by
    intro k he
    rw [keyOf_adapterKey] at he
    exact hx ⟨_, he⟩
  cases op with
  | put k v => simp [Op.mapKey, Op.cmds, after_put, hne k]
  | del k => simp [Op.mapKey, Op.cmds, after_del, hne k]
  | get k => simp [Op.mapKey, Op.cmds, after_nil]
  | has k => simp [Op.mapKey, Op.cmds, after_nil]
  | batch cs => exact absurd ho id

theorem incomparable_append {p q : Bytes} (h1 : ¬ p <+: q) (h2 : ¬ q <+: p) (k : Bytes) :
    ¬ p <+: q ++ k := by
  intro h
  rcases List.prefix_or_prefix_of_prefix h (List.prefix_append q k) with h' | h'
  · exact h1 h'
  · exact h2 h'

theorem two_views {σ : Type} {db : Database σ} {acc abs Inv} (h : Behaves db Op.single acc abs Inv)
    (p q : Option Bytes) (hpq : ¬ keyOf p <+: keyOf q) (hqp : ¬ keyOf q <+: keyOf p) :
    ∀ (hist : List (Bool × Op)) (s : σ), Inv s → (∀ e ∈ hist, e.2.single) →
    side false (runTwo (keyPrefixed db p) (keyPrefixed db q) s hist).2 =
      answers (fun k v => acc (adapterKey (newKeyPrefix p) k) v) (fun k => abs s (keyOf p ++ k))
        (side false hist) ∧
    side true (runTwo (keyPrefixed db p) (keyPrefixed db q) s hist).2 =
      answers (fun k v => acc (adapterKey (newKeyPrefix q) k) v) (fun k => abs s (keyOf q ++ k))
        (side true hist) := by
  intro hist
  induction hist with
  | nil => intro s _ _; exact ⟨rfl, rfl⟩
  | cons e rest ih =>
    intro s hs ho
    obtain ⟨t, op⟩ := e
    have ho1 : op.single := ho (t, op) (by simp)
    have ho2 : ∀ e ∈ rest, e.2.single := fun e he => ho e (by simp [he])
    cases t with
    | false =>
      have hv := C33_view_is_map h p
      obtain ⟨i1, i2⟩ := ih ((keyPrefixed db p).step s op).1 (hv.inv s op hs ho1) ho2
      have hfr : (fun k => abs ((keyPrefixed db p).step s op).1 (keyOf q ++ k)) =
          fun k => abs s (keyOf q ++ k) := by
        funext k
        exact view_frame h p s hs op ho1 _ (incomparable_append hpq hqp k)
      rw [hfr] at i2
      have hn : (fun k => abs ((keyPrefixed db p).step s op).1 (keyOf p ++ k)) = _ :=
        hv.next s op hs ho1
      rw [hn] at i1
      constructor
      · show _ :: side false (runTwo _ _ _ rest).2 = answers _ _ (op :: side false rest)
        rw [answers]
        congr 1
        · exact hv.out s op hs ho1
      · exact i2
    | true =>
      have hv := C33_view_is_map h q
      obtain ⟨i1, i2⟩ := ih ((keyPrefixed db q).step s op).1 (hv.inv s op hs ho1) ho2
      have hfr : (fun k => abs ((keyPrefixed db q).step s op).1 (keyOf p ++ k)) =
          fun k => abs s (keyOf p ++ k) := by
        funext k
        exact view_frame h q s hs op ho1 _ (incomparable_append hqp hpq k)
      rw [hfr] at i1
      have hn : (fun k => abs ((keyPrefixed db q).step s op).1 (keyOf q ++ k)) = _ :=
        hv.next s op hs ho1
      rw [hn] at i2
      constructor
      · exact i1
      · show _ :: side true (runTwo _ _ _ rest).2 = answers _ _ (op :: side true rest)
        rw [answers]
        congr 1
        · exact hv.out s op hs ho1

/-- C33: two views with incomparable prefixes over one database, driven by any interleaved history, each
answer as a map that only saw its own calls. -/
theorem C33_prefix_isolation {σ : Type} {db : Database σ} {acc abs Inv}
    (h : Behaves db Op.single acc abs Inv) (p q : Option Bytes) (hpq : ¬ keyOf p <+: keyOf q)
    (hqp : ¬ keyOf q <+: keyOf p) (hist : List (Bool × Op)) (s : σ) (hs : Inv s)
    (ho : ∀ e ∈ hist, e.2.single) (t : Bool) :
    side t (runTwo (keyPrefixed db p) (keyPrefixed db q) s hist).2 =
      answers (fun k v => acc (adapterKey (newKeyPrefix (if t then q else p)) k) v)
        (fun k => abs s (keyOf (if t then q else p) ++ k)) (side t hist) := by
  have := two_views h p q hpq hqp hist s hs ho
  cases t
  · exact this.1
  · exact this.2

theorem Behaves.mono {σ : Type} {db : Database σ} {ops ops' acc abs Inv} (h : Behaves db ops acc abs Inv)
    (hm : ∀ op, ops' op → ops op) : Behaves db ops' acc abs Inv :=
  ⟨fun s op hs ho => h.out s op hs (hm op ho), fun s op hs ho => h.next s op hs (hm op ho),
   fun s op hs ho => h.inv s op hs (hm op ho)⟩

/-- The isolation theorem applies to the in-memory and to the LevelDB-backed database. -/
example (hist : List (Bool × Op)) (ho : ∀ e ∈ hist, e.2.single) :
    side true (runTwo (keyPrefixed memDB (some [1])) (keyPrefixed memDB (some [2, 3])) [] hist).2 =
      answers (fun k v => nonNil (adapterKey (newKeyPrefix (some [2, 3])) k) v)
        (fun k => load [] ([2, 3] ++ k)) (side true hist) :=
  C33_prefix_isolation (memDB_behaves.mono (fun _ _ => trivial)) (some [1]) (some [2, 3])
    (by decide) (by decide) hist [] trivial ho true

/-- Incomparability is needed: with comparable prefixes one view sees the other's writes. -/
theorem C33_comparable_overlap : ∃ hist : List (Bool × Op),
    side true (runTwo (keyPrefixed memDB (some [1])) (keyPrefixed memDB (some [1, 2])) [] hist).2 ≠
      answers nonNil (fun _ => none) (side true hist) :=
  ⟨[(false, .put (some [2]) (some [9])), (true, .get (some []))], by decide +kernel⟩

/-! ## C38: batches -/

/-- A command with its key converted. -/
def Cmd.mapKey (f : Option Bytes → Option Bytes) : Cmd → Cmd
  | .put k v => .put (f k) v
  | .del k => .del (f k)

/-- C38: applying a batch equals applying its commands one by one (in-memory database). -/
theorem C38_batch_sequential (m : Assoc Bytes) (cs : List Cmd) :
    (memDB.step m (.batch cs)).1 = (memDB.run m (cs.map (fun c => match c with
      | .put k v => .put k v
      | .del k => .del k))).1 := by
  have h : ∀ (cs : List Cmd) (m : Assoc Bytes), cs.foldl memCmd m = (memDB.run m (cs.map (fun c => match c with
      | .put k v => .put k v
      | .del k => .del k))).1 := by
    intro cs
    induction cs with
    | nil => intro m; rfl
    | cons c cs ih => intro m; cases c <;> exact ih _
  simp only [Database.step, memDB, addAll_mem, memBatch, List.nil_append]
  exact h cs m

/-- C38 for any database that behaves as a map: the content after a batch is the content after its
commands issued one by one. -/
theorem C38_batch_content {σ : Type} {db : Database σ} {acc abs Inv}
    (h : Behaves db (fun _ => True) acc abs Inv) (s : σ) (hs : Inv s) (cs : List Cmd) :
    abs (db.step s (.batch cs)).1 = abs (db.run s (cs.map (fun c => match c with
      | .put k v => .put k v
      | .del k => .del k))).1 := by
  rw [h.next s _ hs trivial, (h.run_spec _ s hs (fun _ _ => trivial)).2.1]
  congr 1
  simp only [Op.cmds]
  induction cs with
  | nil => rfl
  | cons c cs ih => cases c <;> simpa [Op.cmds] using ih

theorem add_key (f) (b : Batch) (c : Cmd) : (Batch.key (some f) b).add c =
    match b.add (c.mapKey f) with
    | .ok b' => .ok (.key (some f) b')
    | .err => .err
    | .panic => .panic := by
  cases c with
  | put k v => simp only [Batch.add, Cmd.mapKey, convKey]; cases b.add (.put (f k) v) <;> rfl
  | del k => simp only [Batch.add, Cmd.mapKey, convKey]; cases b.add (.del (f k)) <;> rfl

/-- C38: commands collected through a key-converting batch reach the inner batch with converted keys, in
order; the size is that of the inner batch. -/
theorem C38_keybatch_converts (f : Option Bytes → Option Bytes) (cs : List Cmd) : ∀ b : Batch,
    (Batch.key (some f) b).addAll cs =
      (match b.addAll (cs.map (Cmd.mapKey f)) with
       | .ok b' => .ok (.key (some f) b')
       | .err => .err
       | .panic => .panic) ∧
    (Batch.key (some f) b).size = b.size := by
  induction cs with
  | nil => intro b; exact ⟨rfl, rfl⟩
  | cons c cs ih =>
    intro b
    refine ⟨?_, rfl⟩
    simp only [Batch.addAll, List.map_cons, add_key]
    cases hb : b.add (c.mapKey f) with
    | ok b' => simp only []; exact (ih b').1
    | err => rfl
    | panic => rfl

/-- C38: the size of a batch made by the in-memory database counts its commands, also through any
number of converting batches. -/
theorem C38_size (f : Option Bytes → Option Bytes) (cs : List Cmd) :
    ∃ b, ((keyDatabase memDB f).newBatch []).addAll cs = .ok b ∧ b.size = .ok cs.length := by
  refine ⟨.key (some f) (.mem (cs.map (Cmd.mapKey f))), ?_, ?_⟩
  · show (Batch.key (some f) (.mem [])).addAll cs = _
    rw [(C38_keybatch_converts f cs _).1, addAll_mem]; rfl
  · simp [Batch.size]

/-- Applying a key-converting batch writes the converted keys. -/
def KeyBatchApplies {σ : Type} (db : Database σ) (acc : Option Bytes → Option Bytes → Bool) (abs : σ → Bytes → Option Bytes) : Prop :=
  ∀ (f : Option Bytes → Option Bytes) (s : σ) (cs : List Cmd),
    ((keyDatabase db f).step s (.batch cs)).2 = .done (.ok ()) ∧
    abs ((keyDatabase db f).step s (.batch cs)).1 = after acc (abs s) (cs.map (Cmd.mapKey f))

/-- C38 is violated for application: `KeyDatabase.Batch` hands the wrapper to the in-memory database,
which panics. -/
theorem C38_keybatch_apply_refuted : ¬ KeyBatchApplies memDB nonNil load := by
  intro h
  exact absurd (h id [] []).1 (by decide +kernel)

/-- C38, exactly what happens: every batch collected through a `KeyDatabase` or a key-prefixed adapter
over the in-memory database panics on application, over LevelDB it is refused with an error; nothing is
written. -/
theorem C38_keybatch_apply_partial (f : Option Bytes → Option Bytes) (p : Option Bytes) (cs : List Cmd)
    (m : Assoc Bytes) (l : Level) :
    (keyDatabase memDB f).step m (.batch cs) = (m, .done .panic) ∧
    (keyPrefixed memDB p).step m (.batch cs) = (m, .done .panic) ∧
    (keyDatabase ldb f).step l (.batch cs) = (l, .done .err) ∧
    (keyPrefixed ldb p).step l (.batch cs) = (l, .done .err) := by
  refine ⟨?_, ?_, ?_, ?_⟩
  · have : ((keyDatabase memDB f).newBatch m).addAll cs = .ok (.key (some f) (.mem (cs.map (Cmd.mapKey f)))) := by
      show (Batch.key (some f) (.mem [])).addAll cs = _
      rw [(C38_keybatch_converts f cs _).1, addAll_mem]; rfl
    simp only [Database.step, this]; rfl
  · have : ((keyPrefixed memDB p).newBatch m).addAll cs =
        .ok (.key (some (adapterKey (newKeyPrefix p))) (.mem (cs.map (Cmd.mapKey (adapterKey (newKeyPrefix p)))))) := by
      show (Batch.key (some (adapterKey (newKeyPrefix p))) (.mem [])).addAll cs = _
      rw [(C38_keybatch_converts _ cs _).1, addAll_mem]; rfl
    simp only [Database.step, this]; rfl
  · have : ((keyDatabase ldb f).newBatch l).addAll cs = .ok (.key (some f) (.ldb (cs.map (Cmd.mapKey f)))) := by
      show (Batch.key (some f) (.ldb [])).addAll cs = _
      rw [(C38_keybatch_converts f cs _).1, addAll_ldb]; rfl
    simp only [Database.step, this]; rfl
  · have : ((keyPrefixed ldb p).newBatch l).addAll cs =
        .ok (.key (some (adapterKey (newKeyPrefix p))) (.ldb (cs.map (Cmd.mapKey (adapterKey (newKeyPrefix p)))))) := by
      show (Batch.key (some (adapterKey (newKeyPrefix p))) (.ldb [])).addAll cs = _
      rw [(C38_keybatch_converts _ cs _).1, addAll_ldb]; rfl
    simp only [Database.step, this]; rfl

example : (Batch.key (some (adapterKey (some [9]))) (.mem [])).addAll [.put (some [1]) (some [2]), .del none] =
    .ok (.key (some (adapterKey (some [9]))) (.mem [.put (some [9, 1]) (some [2]), .del (some [9])])) := by
  rfl

/-! ## C36: read-only databases -/

/-- The calls that only read. -/
def Op.isRead : Op → Bool
  | .get _ => true
  | .has _ => true
  | _ => false

/-- C36: whatever is called on a read-only database, the base only sees the reads; their answers are those
of the base, every put, delete, applied batch and close reports an error and leaves the state alone. -/
theorem C36_readonly {σ : Type} (db : Database σ) (w : Wrapped σ) (hw : w = .other db) (s : σ) :
    (∀ hist : List Op, ((readOnly w).db.run s hist).1 = (db.run s (hist.filter Op.isRead)).1) ∧
    (∀ hist : List Op, (∀ op ∈ hist, op.isRead = true) → (readOnly w).db.run s hist = db.run s hist) ∧
    (∀ k v, (readOnly w).db.put s k v = (s, .err)) ∧ (∀ k, (readOnly w).db.del s k = (s, .err)) ∧
    (∀ b, (readOnly w).db.batch s b = (s, .err)) ∧ (readOnly w).db.close s = (s, .err) := by
  subst hw
  have hread : ∀ (s : σ) (op : Op), op.isRead = true → (readOnlyOf db).step s op = db.step s op := by
    intro s op h
    cases op <;> simp_all [Op.isRead, Database.step, readOnlyOf]
  have hother : ∀ (s : σ) (op : Op), op.isRead = false → ((readOnlyOf db).step s op).1 = s := by
    intro s op h
    cases op with
    | put k v => rfl
    | del k => rfl
    | get k => simp [Op.isRead] at h
    | has k => simp [Op.isRead] at h
    | batch cs => cases cs <;> rfl
  refine ⟨?_, ?_, fun _ _ => rfl, fun _ => rfl, fun _ => rfl, rfl⟩
  · intro hist
    induction hist generalizing s with
    | nil => rfl
    | cons op rest ih =>
      show ((readOnlyOf db).run ((readOnlyOf db).step s op).1 rest).1 = _
      cases h : op.isRead with
      | true =>
        rw [hread s op h, List.filter_cons_of_pos h]
        exact ih _
      | false =>
        rw [hother s op h, List.filter_cons_of_neg (by simp [h])]
        exact ih s
  · intro hist
    induction hist generalizing s with
    | nil => intro _; rfl
    | cons op rest ih =>
      intro h
      have h1 := hread s op (h op (by simp))
      have h2 : (readOnlyOf db).run ((readOnlyOf db).step s op).1 rest = _ :=
        ih ((readOnlyOf db).step s op).1 (fun o ho => h o (by simp [ho]))
      show (((readOnlyOf db).run ((readOnlyOf db).step s op).1 rest).1, _) = _
      rw [show (readOnlyOf db).run ((readOnlyOf db).step s op).1 rest = db.run (db.step s op).1 rest by
        rw [← h1]; exact h2]
      show _ = ((db.run (db.step s op).1 rest).1, _)
      rw [Prod.mk.injEq]
      refine ⟨rfl, ?_⟩
      show ((readOnlyOf db).step s op).2 :: ((readOnlyOf db).run ((readOnlyOf db).step s op).1 rest).2 = _
      rw [h2, h1]

/-- C36: wrapping twice is the same as wrapping once. -/
theorem C36_idempotent {σ : Type} (w : Wrapped σ) : readOnly (readOnly w) = readOnly w := by
  cases w <;> rfl

/-- Every write call reports an error. -/
def WritesRefused {σ : Type} (db : Database σ) : Prop :=
  ∀ s op, op.isRead = false → (db.step s op).2 = .done .err

/-- C36 is violated for batches obtained from the read-only database itself: `NewBatch` returns a nil
interface, so collecting a command panics instead of reporting `ErrReadOnly`. -/
theorem C36_newBatch_refuted : ¬ WritesRefused (readOnlyOf memDB) := by
  intro h
  exact absurd (h [] (.batch [.del (some [1])]) rfl) (by decide +kernel)

example : ((readOnly (.other memDB)).db.run [([1], [5])] [.get (some [1]), .put (some [1]) (some [6]),
    .del (some [1]), .has (some [1]), .get (some [1])]) =
    ([([1], [5])], [.value (.ok (some [5])), .done .err, .done .err, .found (.ok true),
      .value (.ok (some [5]))]) := by decide +kernel

/-! ## C34: temporary databases -/

/-- What a temporary database stands for. -/
def tempAbs {σ : Type} (abs : σ → Bytes → Option Bytes) (t : Temp σ) (k : Bytes) : Option Bytes :=
  if k ∈ t.deleted then none else (load t.mem k).or (abs t.read k)

theorem tempPut_spec {σ : Type} (abs : σ → Bytes → Option Bytes) (t : Temp σ) (k v : Option Bytes) :
    tempAbs abs (tempPut t k v).1 = after nonNil (tempAbs abs t) [.put k v] ∧
    (tempPut t k v).2 = (if nonNil k v = true then .ok () else .err) ∧ (tempPut t k v).1.read = t.read := by
  have hm := memPut_fst t.mem k v
  rw [after_put] at hm
  rw [after_put]
  by_cases h : nonNil k v = true
  · have h2 : (memPut t.mem k v).2 = .ok () := by
      unfold memPut; rw [copySlice_id, copySlice_id]
      cases k <;> cases v <;> simp_all [nonNil]
    refine ⟨?_, ?_, ?_⟩
    · funext x
      simp only [tempPut, h2, tempAbs, hm, h, true_and]
      by_cases hx : keyOf k = x
      · simp [hx]
      · have hx' : ¬ x = keyOf k := fun e => hx e.symm
        simp [hx, hx']
    · simp [tempPut, h2, h]
    · simp [tempPut, h2]
  · have h2 : (memPut t.mem k v).2 = .err := by
      unfold memPut; rw [copySlice_id, copySlice_id]
      cases k <;> cases v <;> simp_all [nonNil]
    refine ⟨?_, ?_, ?_⟩
    · funext x
      simp [tempPut, h2, tempAbs, hm, h]
    · simp [tempPut, h2, h]
    · simp [tempPut, h2]

theorem tempDel_spec {σ : Type} (abs : σ → Bytes → Option Bytes) (t : Temp σ) (k : Option Bytes) :
    tempAbs abs (tempDel t k) = after nonNil (tempAbs abs t) [.del k] ∧ (tempDel t k).read = t.read := by
  refine ⟨?_, rfl⟩
  rw [after_del]
  funext x
  simp only [tempDel, tempAbs, memDel, load_remove]
  by_cases hx : keyOf k = x
  · subst hx
    by_cases hd : keyOf k ∈ t.deleted <;> simp [hd]
  · have hx' : ¬ x = keyOf k := fun e => hx e.symm
    by_cases hd : keyOf k ∈ t.deleted <;> simp [hd, hx, hx']

theorem tempCmds_spec {σ : Type} (abs : σ → Bytes → Option Bytes) (cs : List Cmd) : ∀ t : Temp σ,
    tempAbs abs (cs.foldl tempCmd t) = after nonNil (tempAbs abs t) cs ∧
    (cs.foldl tempCmd t).read = t.read := by
  induction cs with
  | nil => intro t; exact ⟨by simp [after_nil], rfl⟩
  | cons c cs ih =>
    intro t
    rw [List.foldl_cons, after_cons]
    obtain ⟨i1, i2⟩ := ih (tempCmd t c)
    have hc : tempAbs abs (tempCmd t c) = after nonNil (tempAbs abs t) [c] ∧ (tempCmd t c).read = t.read := by
      cases c with
      | put k v => exact ⟨(tempPut_spec abs t k v).1, (tempPut_spec abs t k v).2.2⟩
      | del k => exact tempDel_spec abs t k
    exact ⟨by rw [i1, hc.1], by rw [i2, hc.2]⟩

theorem base_get {σ : Type} {db : Database σ} {acc abs Inv}
    (h : Behaves db (fun op => op.isRead = true) acc abs Inv) (s : σ) (hs : Inv s) (k : Option Bytes) :
    (db.get s k).2 = .ok (abs s (keyOf k)) ∧ abs (db.get s k).1 = abs s ∧ Inv (db.get s k).1 := by
  have h1 := h.out s (.get k) hs rfl
  have h2 := h.next s (.get k) hs rfl
  have h3 := h.inv s (.get k) hs rfl
  simp only [Database.step, answer, Op.cmds, after_nil, Out.value.injEq] at h1 h2 h3
  exact ⟨h1, h2, h3⟩

theorem base_has {σ : Type} {db : Database σ} {acc abs Inv}
    (h : Behaves db (fun op => op.isRead = true) acc abs Inv) (s : σ) (hs : Inv s) (k : Option Bytes) :
    (db.has s k).2 = .ok (abs s (keyOf k)).isSome ∧ abs (db.has s k).1 = abs s ∧ Inv (db.has s k).1 := by
  have h1 := h.out s (.has k) hs rfl
  have h2 := h.next s (.has k) hs rfl
  have h3 := h.inv s (.has k) hs rfl
  simp only [Database.step, answer, Op.cmds, after_nil, Out.found.injEq] at h1 h2 h3
  exact ⟨h1, h2, h3⟩

theorem temporary_behaves {σ : Type} {db : Database σ} {acc abs Inv}
    (h : Behaves db (fun op => op.isRead = true) acc abs Inv) :
    Behaves (temporary db) (fun _ => True) nonNil (tempAbs abs) (fun t => Inv t.read) := by
  have key : ∀ (t : Temp σ) (op : Op), Inv t.read →
      ((temporary db).step t op).2 = answer nonNil (tempAbs abs t) op ∧
      tempAbs abs ((temporary db).step t op).1 = after nonNil (tempAbs abs t) op.cmds ∧
      Inv ((temporary db).step t op).1.read := by
    intro t op hs
    cases op with
    | put k v =>
      obtain ⟨a, b, c⟩ := tempPut_spec abs t k v
      refine ⟨?_, a, ?_⟩
      · show Out.done (tempPut t k v).2 = _
        rw [b]; rfl
      · show Inv (tempPut t k v).1.read
        rw [c]; exact hs
    | del k => exact ⟨rfl, (tempDel_spec abs t k).1, hs⟩
    | get k =>
      obtain ⟨a, b, c⟩ := base_get h t.read hs k
      simp only [Database.step, temporary, answer, Op.cmds, after_nil]
      by_cases hd : keyOf k ∈ t.deleted
      · simp [hd, tempAbs, hs]
      · simp only [hd, if_false]
        cases hm : memGet t.mem k with
        | some bs =>
          rw [memGet, copySlice_id] at hm
          simp [tempAbs, hd, hm, hs]
        | none =>
          rw [memGet, copySlice_id] at hm
          refine ⟨?_, ?_, c⟩
          · simp [tempAbs, hd, hm, a]
          · funext x; simp [tempAbs, b]
    | has k =>
      obtain ⟨a, b, c⟩ := base_has h t.read hs k
      simp only [Database.step, temporary, answer, Op.cmds, after_nil]
      by_cases hd : keyOf k ∈ t.deleted
      · simp [hd, tempAbs, hs]
      · simp only [hd, if_false]
        by_cases hm : memHas t.mem k = true
        · have : (load t.mem (keyOf k)).isSome = true := hm
          simp [tempAbs, hd, hm, hs, this, Option.isSome_or]
        · have hl : load t.mem (keyOf k) = none := by
            simpa [memHas] using hm
          simp only [hm]
          refine ⟨?_, ?_, c⟩
          · simp [tempAbs, hd, hl, a]
          · funext x; simp [tempAbs, b]
    | batch cs =>
      obtain ⟨a, b⟩ := tempCmds_spec abs cs t
      simp only [Database.step, temporary, answer, Op.cmds, addAll_mem, List.nil_append]
      exact ⟨trivial, a, by rw [b]; exact hs⟩
  exact ⟨fun s op hs _ => (key s op hs).1, fun s op hs _ => (key s op hs).2.1,
    fun s op hs _ => (key s op hs).2.2⟩

/-- C34: every history on a temporary database is answered as a map that starts with the content of the
base. -/
theorem C34_overlay {σ : Type} {db : Database σ} {acc abs Inv}
    (h : Behaves db (fun op => op.isRead = true) acc abs Inv) (s : σ) (hs : Inv s) (hist : List Op) :
    ((temporary db).run (newTemp s) hist).2 = answers nonNil (abs s) hist := by
  have := (temporary_behaves h).run_spec hist (newTemp s) hs (fun _ _ => trivial)
  have he : tempAbs abs (newTemp s) = abs s := by
    funext k; simp [tempAbs, newTemp, load]
  rw [he] at this
  exact this.1

/-- C34: the base is only ever read. Its state at the end is what some history of reads makes of it. -/
theorem C34_base_only_read {σ : Type} (db : Database σ) (s : σ) (hist : List Op) :
    ∃ reads : List Op, (∀ op ∈ reads, op.isRead = true) ∧
      ((temporary db).run (newTemp s) hist).1.read = (db.run s reads).1 := by
  have hstep : ∀ (t : Temp σ) (op : Op), ∃ reads : List Op, (∀ op ∈ reads, op.isRead = true) ∧
      ((temporary db).step t op).1.read = (db.run t.read reads).1 := by
    intro t op
    cases op with
    | put k v =>
      exact ⟨[], by simp, (tempPut_spec (fun _ _ => none) t k v).2.2⟩
    | del k => exact ⟨[], by simp, rfl⟩
    | get k =>
      simp only [Database.step, temporary]
      split
      · exact ⟨[], by simp, rfl⟩
      · split
        · exact ⟨[], by simp, rfl⟩
        · exact ⟨[.get k], by simp [Op.isRead], rfl⟩
    | has k =>
      simp only [Database.step, temporary]
      split
      · exact ⟨[], by simp, rfl⟩
      · split
        · exact ⟨[], by simp, rfl⟩
        · exact ⟨[.has k], by simp [Op.isRead], rfl⟩
    | batch cs =>
      simp only [Database.step, temporary, addAll_mem]
      exact ⟨[], by simp, (tempCmds_spec (fun _ _ => none) _ t).2⟩
  have hrun : ∀ (reads more : List Op) (s : σ),
      (db.run s (reads ++ more)).1 = (db.run (db.run s reads).1 more).1 := by
    intro reads
    induction reads with
    | nil => intro more s; rfl
    | cons o os ih => intro more s; exact ih more _
  have main : ∀ (hist : List Op) (t : Temp σ), ∃ reads : List Op, (∀ op ∈ reads, op.isRead = true) ∧
      ((temporary db).run t hist).1.read = (db.run t.read reads).1 := by
    intro hist
    induction hist with
    | nil => intro t; exact ⟨[], by simp, rfl⟩
    | cons op rest ih =>
      intro t
      obtain ⟨r1, h1, e1⟩ := hstep t op
      obtain ⟨r2, h2, e2⟩ := ih ((temporary db).step t op).1
      refine ⟨r1 ++ r2, ?_, ?_⟩
      · intro o ho
        rcases List.mem_append.mp ho with ho | ho
        · exact h1 o ho
        · exact h2 o ho
      · rw [hrun, ← e1]; exact e2
  exact main hist (newTemp s)

/-- C34 on an in-memory base: the base is literally unchanged. -/
theorem C34_mem_base_unchanged (m : Assoc Bytes) (hist : List Op) :
    ((temporary memDB).run (newTemp m) hist).1.read = m := by
  obtain ⟨reads, h1, h2⟩ := C34_base_only_read memDB m hist
  rw [h2]
  clear h2
  induction reads generalizing m with
  | nil => rfl
  | cons op rest ih =>
    have hm : (memDB.step m op).1 = m := by
      have := h1 op (by simp)
      cases op <;> simp_all [Op.isRead, Database.step, memDB]
    show (memDB.run (memDB.step m op).1 rest).1 = m
    rw [hm]; exact ih m (fun o ho => h1 o (by simp [ho]))

example : ((temporary memDB).run (newTemp [([1], [5]), ([2], [6])]) [.del (some [1]), .get (some [1]),
    .put (some [1]) (some []), .get (some [1]), .batch [.del (some [2]), .put (some [3]) (some [7])],
    .has (some [2]), .has (some [3])]).2 =
    [.done (.ok ()), .value (.ok none), .done (.ok ()), .value (.ok (some [])), .done (.ok ()),
     .found (.ok false), .found (.ok true)] := by decide +kernel

/-! ## C35: the cached database -/

/-- A history on the cached database; before each call the cache forgets the keys selected by the
schedule. -/
def runEvict {σ : Type} (db : Database σ) (c : Cached σ) : List ((Bytes → Bool) × Op) → Cached σ × List Out
  | [] => (c, [])
  | (e, op) :: rest =>
    ((runEvict db ((cachedDB db).step (c.evict e) op).1 rest).1,
      ((cachedDB db).step (c.evict e) op).2 ::
        (runEvict db ((cachedDB db).step (c.evict e) op).1 rest).2)

/-- Every cached entry is what the base holds. -/
def Coherent {σ : Type} (abs : σ → Bytes → Option Bytes) (Inv : σ → Prop) (c : Cached σ) : Prop :=
  Inv c.base ∧ ∀ k v, load c.cache k = some v → abs c.base k = v

theorem Coherent.evict {σ : Type} {abs : σ → Bytes → Option Bytes} {Inv} {c : Cached σ}
    (h : Coherent abs Inv c) (e : Bytes → Bool) : Coherent abs Inv (c.evict e) := by
  refine ⟨h.1, fun k v hl => h.2 k v ?_⟩
  have : load (c.cache.filter (fun p => !e p.1)) k = some v := hl
  rw [load_filter c.cache (fun k => !e k)] at this
  split at this
  · exact this
  · simp at this

theorem addAll_cached (cs : List Cmd) : ∀ (keys : List Bytes) (b : Batch),
    ∃ keys' : List Bytes, (∀ k, k ∈ keys' ↔ k ∈ keys ∨ ∃ c ∈ cs, (match c with
        | .put k' _ => keyOf k'
        | .del k' => keyOf k') = k) ∧
      (Batch.cached keys b).addAll cs =
        match b.addAll cs with
        | .ok b' => .ok (.cached keys' b')
        | .err => .err
        | .panic => .panic := by
  induction cs with
  | nil => intro keys b; exact ⟨keys, by simp, rfl⟩
  | cons c cs ih =>
    intro keys b
    have hadd : (Batch.cached keys b).add c = match b.add c with
        | .ok b' => .ok (.cached (if (match c with
            | .put k' _ => keyOf k'
            | .del k' => keyOf k') ∈ keys then keys else (match c with
            | .put k' _ => keyOf k'
            | .del k' => keyOf k') :: keys) b')
        | .err => .err
        | .panic => .panic := by
      cases c <;> rfl
    generalize hk : (match c with
            | .put k' _ => keyOf k'
            | .del k' => keyOf k') = kc at hadd
    cases hb : b.add c with
    | ok b' =>
      obtain ⟨keys', h1, h2⟩ := ih (if kc ∈ keys then keys else kc :: keys) b'
      refine ⟨keys', ?_, ?_⟩
      · intro k
        rw [h1]
        by_cases hm : kc ∈ keys
        · simp only [hm, if_true, List.mem_cons, exists_eq_or_imp, hk]
          constructor
          · rintro (h | h)
            · exact Or.inl h
            · exact Or.inr (Or.inr h)
          · rintro (h | h | h)
            · exact Or.inl h
            · exact Or.inl (h ▸ hm)
            · exact Or.inr h
        · simp only [hm, if_false, List.mem_cons, exists_eq_or_imp, hk]
          constructor
          · rintro ((h | h) | h)
            · exact Or.inr (Or.inl h.symm)
            · exact Or.inl h
            · exact Or.inr (Or.inr h)
          · rintro (h | h | h)
            · exact Or.inl (Or.inr h)
            · exact Or.inl (Or.inl h.symm)
            · exact Or.inr h
      · simp only [Batch.addAll, hadd, hb]; exact h2
    | err =>
      obtain ⟨keys', h1, _⟩ := ih (kc :: keys) b
      refine ⟨keys', ?_, by simp only [Batch.addAll, hadd, hb]⟩
      intro k; rw [h1]; simp only [List.mem_cons, exists_eq_or_imp, hk]
      constructor
      · rintro ((h | h) | h)
        · exact Or.inr (Or.inl h.symm)
        · exact Or.inl h
        · exact Or.inr (Or.inr h)
      · rintro (h | h | h)
        · exact Or.inl (Or.inr h)
        · exact Or.inl (Or.inl h.symm)
        · exact Or.inr h
    | panic =>
      obtain ⟨keys', h1, _⟩ := ih (kc :: keys) b
      refine ⟨keys', ?_, by simp only [Batch.addAll, hadd, hb]⟩
      intro k; rw [h1]; simp only [List.mem_cons, exists_eq_or_imp, hk]
      constructor
      · rintro ((h | h) | h)
        · exact Or.inr (Or.inl h.symm)
        · exact Or.inl h
        · exact Or.inr (Or.inr h)
      · rintro (h | h | h)
        · exact Or.inl (Or.inr h)
        · exact Or.inl (Or.inl h.symm)
        · exact Or.inr h

/-- Keys no command mentions keep their content. -/
theorem after_untouched (acc m) (cs : List Cmd) (k : Bytes) (h : ¬ ∃ c ∈ cs, (match c with
        | .put k' _ => keyOf k'
        | .del k' => keyOf k') = k) : after acc m cs k = m k := by
  have : cs.reverse.findSome? (effect acc k) = none := by
    rw [List.findSome?_eq_none_iff]
    intro c hc
    have hne := fun e => h ⟨c, by simpa using hc, e⟩
    cases c with
    | put k' v => simp only [effect]; rw [if_neg]; exact fun hh => hne hh.2
    | del k' => simp only [effect]; rw [if_neg]; exact hne
  simp [after, this]

/-- One call on a coherent cached database: everything but `Has` answers as the base; `Has` answers
`true` exactly when the base holds the key or the cache has an entry for it. -/
theorem cached_step {σ : Type} {db : Database σ} {acc abs Inv}
    (h : Behaves db (fun _ => True) acc abs Inv) (c : Cached σ) (hc : Coherent abs Inv c) (op : Op) :
    ((∀ k, op ≠ .has k) → ((cachedDB db).step c op).2 = answer acc (abs c.base) op) ∧
    (∀ k, op = .has k → ((cachedDB db).step c op).2 =
      .found (.ok ((abs c.base (keyOf k)).isSome || (load c.cache (keyOf k)).isSome))) ∧
    abs ((cachedDB db).step c op).1.base = after acc (abs c.base) op.cmds ∧
    Coherent abs Inv ((cachedDB db).step c op).1 := by
  obtain ⟨hi, hcoh⟩ := hc
  have hr : Behaves db (fun op => op.isRead = true) acc abs Inv := h.mono (fun _ _ => trivial)
  cases op with
  | put k v =>
    have h1 := h.out c.base (.put k v) hi trivial
    have h2 := h.next c.base (.put k v) hi trivial
    have h3 := h.inv c.base (.put k v) hi trivial
    simp only [Database.step, answer, Op.cmds, Out.done.injEq] at h1 h2 h3
    refine ⟨fun _ => ?_, by simp, ?_, ?_⟩
    · simp only [Database.step, cachedDB, answer, h1]
      by_cases ha : acc k v = true <;> simp [ha]
    · simp only [Database.step, cachedDB, Op.cmds]
      split <;> exact h2
    · by_cases ha : acc k v = true
      · have : (db.put c.base k v).2 = .ok () := by simp [h1, ha]
        simp only [Database.step, cachedDB, this]
        refine ⟨h3, fun x w hl => ?_⟩
        simp only [load_remove] at hl
        split at hl
        · simp at hl
        · rename_i hne
          rw [h2, after_put]
          simp only [hne, and_false, if_false]
          exact hcoh x w hl
      · have : (db.put c.base k v).2 = .err := by simp [h1, ha]
        simp only [Database.step, cachedDB, this]
        refine ⟨h3, fun x w hl => ?_⟩
        rw [h2, after_put]
        simp only [ha]
        exact hcoh x w hl
  | del k =>
    have h1 := h.out c.base (.del k) hi trivial
    have h2 := h.next c.base (.del k) hi trivial
    have h3 := h.inv c.base (.del k) hi trivial
    simp only [Database.step, answer, Op.cmds] at h1 h2 h3
    refine ⟨fun _ => h1, by simp, h2, h3, fun x w hl => ?_⟩
    simp only [Database.step, cachedDB, load_remove] at hl
    split at hl
    · simp at hl
    · rename_i hne
      show abs (db.del c.base k).1 x = w
      rw [h2, after_del]
      simp only [hne, if_false]
      exact hcoh x w hl
  | get k =>
    obtain ⟨a, b, d⟩ := base_get hr c.base hi k
    simp only [Database.step, cachedDB, answer, Op.cmds, after_nil]
    refine ⟨fun _ => ?_, by simp, ?_, ?_⟩
    · cases hl : load c.cache (keyOf k) with
      | some v => simp [hcoh _ _ hl]
      | none => simp [a]
    · cases hl : load c.cache (keyOf k) with
      | some v => rfl
      | none => simp [a, b]
    · cases hl : load c.cache (keyOf k) with
      | some v => exact ⟨hi, hcoh⟩
      | none =>
        simp only [a]
        refine ⟨d, fun x w hx => ?_⟩
        simp only [load_store] at hx
        rw [b]
        split at hx
        · rename_i he
          subst he
          simpa using hx
        · exact hcoh x w hx
  | has k =>
    obtain ⟨a, b, d⟩ := base_has hr c.base hi k
    simp only [Database.step, cachedDB, Op.cmds, after_nil]
    refine ⟨fun hh => absurd rfl (hh k), ?_, ?_, ?_⟩
    · intro k' hk'
      cases hk'
      cases hl : load c.cache (keyOf k) with
      | some v => simp
      | none => simp [a]
    · cases hl : load c.cache (keyOf k) with
      | some v => rfl
      | none => exact b
    · cases hl : load c.cache (keyOf k) with
      | some v => exact ⟨hi, hcoh⟩
      | none =>
        refine ⟨d, fun x w hx => ?_⟩
        rw [show abs ((db.has c.base k).1) = abs c.base from b]
        exact hcoh x w hx
  | batch cs =>
    have h1 := h.out c.base (.batch cs) hi trivial
    have h2 := h.next c.base (.batch cs) hi trivial
    have h3 := h.inv c.base (.batch cs) hi trivial
    obtain ⟨keys', hk, hadd⟩ := addAll_cached cs [] (db.newBatch c.base)
    have hadd' : ((cachedDB db).newBatch c).addAll cs = _ := hadd
    simp only [Database.step, answer] at h1 h2 h3
    cases hb : (db.newBatch c.base).addAll cs with
    | err => rw [hb] at h1; simp at h1
    | panic => rw [hb] at h1; simp at h1
    | ok b' =>
      rw [hb] at h1 h2 h3 hadd'
      simp only [] at h1 h2 h3 hadd'
      simp only [Database.step, hadd', answer]
      refine ⟨fun _ => h1, by simp, h2, h3, fun x w hl => ?_⟩
      simp only [cachedDB, load_removeAll] at hl
      split at hl
      · simp at hl
      · rename_i hne
        show abs (db.batch c.base b').1 x = w
        rw [h2]
        have hun := after_untouched acc (abs c.base) cs x (by
          intro hex; exact hne ((hk x).mpr (Or.inr hex)))
        rw [Op.cmds, hun]
        exact hcoh x w hl

/-- The answers agree except that a `Has` answered `false` by the map may be answered `true`. -/
def UpToHas : List Op → List Out → List Out → Prop
  | [], [], [] => True
  | .has _ :: ops, o :: os, p :: ps =>
    (o = p ∨ (o = .found (.ok true) ∧ p = .found (.ok false))) ∧ UpToHas ops os ps
  | _ :: ops, o :: os, p :: ps => o = p ∧ UpToHas ops os ps
  | _, _, _ => False

theorem cached_run {σ : Type} {db : Database σ} {acc abs Inv}
    (h : Behaves db (fun _ => True) acc abs Inv) : ∀ (hist : List ((Bytes → Bool) × Op)) (c : Cached σ),
    Coherent abs Inv c →
    UpToHas (hist.map (·.2)) (runEvict db c hist).2 (answers acc (abs c.base) (hist.map (·.2))) ∧
    abs (runEvict db c hist).1.base = after acc (abs c.base) ((hist.map (·.2)).flatMap Op.cmds) ∧
    Coherent abs Inv (runEvict db c hist).1 := by
  intro hist
  induction hist with
  | nil => intro c hc; exact ⟨trivial, by simp [runEvict, after_nil], hc⟩
  | cons e rest ih =>
    intro c hc
    obtain ⟨e, op⟩ := e
    obtain ⟨s1, s2, s3, s4⟩ := cached_step h (c.evict e) (hc.evict e) op
    obtain ⟨i1, i2, i3⟩ := ih _ s4
    have hb : (c.evict e).base = c.base := rfl
    rw [hb] at s1 s2 s3
    rw [s3] at i1 i2
    refine ⟨?_, ?_, i3⟩
    · simp only [List.map_cons, runEvict, answers]
      cases op with
      | has k =>
        refine ⟨?_, i1⟩
        rw [s2 k rfl]
        simp only [answer]
        cases (abs c.base (keyOf k)).isSome <;> cases (load (c.evict e).cache (keyOf k)).isSome <;> simp
      | put k v => exact ⟨s1 (by simp), i1⟩
      | del k => exact ⟨s1 (by simp), i1⟩
      | get k => exact ⟨s1 (by simp), i1⟩
      | batch cs => exact ⟨s1 (by simp), i1⟩
    · simp only [List.map_cons, runEvict, List.flatMap_cons]
      rw [i2, after_append]

/-- C35 (partial: `Has`): for every history and every eviction schedule, every call through the cache but
`Has` answers as the underlying map, and the underlying content is what the history says; `Has` may answer
`true` for a key the map does not hold. -/
theorem C35_transparent_partial {σ : Type} {db : Database σ} {acc abs Inv}
    (h : Behaves db (fun _ => True) acc abs Inv) (s : σ) (hs : Inv s)
    (hist : List ((Bytes → Bool) × Op)) :
    UpToHas (hist.map (·.2)) (runEvict db ⟨s, []⟩ hist).2 (answers acc (abs s) (hist.map (·.2))) ∧
    abs (runEvict db ⟨s, []⟩ hist).1.base = after acc (abs s) ((hist.map (·.2)).flatMap Op.cmds) := by
  have := cached_run h hist ⟨s, []⟩ ⟨hs, by intro k v hl; simp [load] at hl⟩
  exact ⟨this.1, this.2.1⟩

/-- No `Get` of a history asks for a key that is missing at that moment. -/
def NoMissingGet (acc : Option Bytes → Option Bytes → Bool) : (Bytes → Option Bytes) → List Op → Prop
  | _, [] => True
  | m, .get k :: ops => m (keyOf k) ≠ none ∧ NoMissingGet acc m ops
  | m, op :: ops => NoMissingGet acc (after acc m op.cmds) ops

/-- C35 (partial): for histories that never read a missing key with `Get`, the cached database answers
every call, `Has` included, exactly as the underlying map. -/
theorem C35_exact_partial {σ : Type} {db : Database σ} {acc abs Inv}
    (h : Behaves db (fun _ => True) acc abs Inv) (s : σ) (hs : Inv s)
    (hist : List ((Bytes → Bool) × Op)) (hg : NoMissingGet acc (abs s) (hist.map (·.2))) :
    (runEvict db ⟨s, []⟩ hist).2 = answers acc (abs s) (hist.map (·.2)) := by
  suffices main : ∀ (hist : List ((Bytes → Bool) × Op)) (c : Cached σ), Coherent abs Inv c →
      (∀ k, load c.cache k ≠ some none) → NoMissingGet acc (abs c.base) (hist.map (·.2)) →
      (runEvict db c hist).2 = answers acc (abs c.base) (hist.map (·.2)) from
    main hist ⟨s, []⟩ ⟨hs, by intro k v hl; simp [load] at hl⟩ (by simp [load]) hg
  clear hg hist hs s
  intro hist
  induction hist with
  | nil => intro c _ _ _; rfl
  | cons e rest ih =>
    intro c hc hn hg
    obtain ⟨e, op⟩ := e
    obtain ⟨s1, s2, s3, s4⟩ := cached_step h (c.evict e) (hc.evict e) op
    have hb : (c.evict e).base = c.base := rfl
    rw [hb] at s1 s2 s3
    have hn1 : ∀ k, load (c.evict e).cache k ≠ some none := by
      intro k hk
      have : load (c.cache.filter (fun p => !e p.1)) k = some none := hk
      rw [load_filter c.cache (fun k => !e k)] at this
      split at this
      · exact hn k this
      · simp at this
    generalize hcc : c.evict e = c1 at *
    simp only [List.map_cons, runEvict, answers]
    rw [hcc]
    have hg' : NoMissingGet acc (after acc (abs c.base) op.cmds) (rest.map (·.2)) := by
      cases op with
      | get k => simpa [Op.cmds, after_nil] using hg.2
      | put k v => exact hg
      | del k => exact hg
      | has k => exact hg
      | batch cs => exact hg
    rw [← s3] at hg'
    have hout : ((cachedDB db).step c1 op).2 = answer acc (abs c.base) op := by
      cases op with
      | has k =>
        rw [s2 k rfl]
        simp only [answer]
        cases hl : load c1.cache (keyOf k) with
        | none => simp
        | some v =>
          have hv := (hcc ▸ hc.evict e : Coherent abs Inv c1).2 _ _ hl
          rw [hb] at hv
          cases v with
          | none => exact absurd hl (hn1 _)
          | some w => simp [hv]
      | put k v => exact s1 (by simp)
      | del k => exact s1 (by simp)
      | get k => exact s1 (by simp)
      | batch cs => exact s1 (by simp)
    have hn2 : ∀ k, load ((cachedDB db).step c1 op).1.cache k ≠ some none := by
      intro x
      cases op with
      | put k v =>
        simp only [Database.step, cachedDB]
        split
        · simp only [load_remove]; split
          · simp
          · exact hn1 x
        · exact hn1 x
        · exact hn1 x
      | del k =>
        simp only [Database.step, cachedDB, load_remove]
        split
        · simp
        · exact hn1 x
      | get k =>
        have hr : Behaves db (fun op => op.isRead = true) acc abs Inv := h.mono (fun _ _ => trivial)
        have hi : Inv c1.base := (hcc ▸ hc.evict e : Coherent abs Inv c1).1
        obtain ⟨a, _, _⟩ := base_get hr c1.base hi k
        simp only [Database.step, cachedDB]
        cases hl : load c1.cache (keyOf k) with
        | some v => exact hn1 x
        | none =>
          simp only [a, load_store]
          split
          · rw [hb]
            intro hh
            exact hg.1 (Option.some.inj hh)
          · exact hn1 x
      | has k =>
        simp only [Database.step, cachedDB]
        split
        · exact hn1 x
        · exact hn1 x
      | batch cs =>
        obtain ⟨keys', hk, hadd⟩ := addAll_cached cs [] (db.newBatch c1.base)
        have hadd' : ((cachedDB db).newBatch c1).addAll cs = _ := hadd
        simp only [Database.step, hadd']
        cases (db.newBatch c1.base).addAll cs with
        | err => exact hn1 x
        | panic => exact hn1 x
        | ok b' =>
          simp only [cachedDB, load_removeAll]
          split
          · simp
          · exact hn1 x
    rw [hout, ih _ s4 hn2 hg', s3]

/-- The cached database answers as the underlying map. -/
def Transparent {σ : Type} (db : Database σ) (acc : Option Bytes → Option Bytes → Bool) (abs : σ → Bytes → Option Bytes) : Prop :=
  ∀ (s : σ) (hist : List Op), ((cachedDB db).run ⟨s, []⟩ hist).2 = answers acc (abs s) hist

/-- C35 is violated by `Has`: a `Get` of a missing key caches nil, after which `Has` answers `true`. -/
theorem C35_has_refuted : ¬ Transparent memDB nonNil load := by
  intro h
  exact absurd (h [] [.get (some [1]), .has (some [1])]) (by decide +kernel)

/-- C35 is also violated by batches that did not come from the cached database: applying a batch of the
base database writes the base but leaves the cached entry, so the next `Get` is stale. -/
theorem C35_foreign_batch_refuted :
    ((cachedDB memDB).get ((cachedDB memDB).batch ⟨[([1], [7])], [([1], some [7])]⟩
      (.mem [.put (some [1]) (some [8])])).1 (some [1])).2 = .ok (some [7]) ∧
    load ((cachedDB memDB).batch ⟨[([1], [7])], [([1], some [7])]⟩
      (.mem [.put (some [1]) (some [8])])).1.base [1] = some [8] := by decide +kernel

example : ((cachedDB memDB).run ⟨[([1], [7])], []⟩ [.get (some [1]), .put (some [1]) (some [8]),
    .get (some [1]), .batch [.del (some [1])], .get (some [1])]).2 =
    [.value (.ok (some [7])), .done (.ok ()), .value (.ok (some [8])), .done (.ok ()),
     .value (.ok none)] := by decide +kernel

/-! ## C37: BatchWrite -/

/-- The items whose writes should be in the database: accepted ones before the first error. -/
def accepted : List Action → List Action
  | [] => []
  | a :: rest => if a.err then [] else if a.ok then a :: accepted rest else accepted rest

/-- Rejected items issue no writes. -/
def Clean (items : List Action) : Prop := ∀ a ∈ items, a.ok = false → a.cmds = []

theorem addAll_append (cs ds : List Cmd) : ∀ b : Batch, b.addAll (cs ++ ds) =
    match b.addAll cs with
    | .ok b' => b'.addAll ds
    | .err => .err
    | .panic => .panic := by
  induction cs with
  | nil => intro b; rfl
  | cons c cs ih =>
    intro b
    simp only [List.cons_append, Batch.addAll]
    cases b.add c with
    | ok b' => exact ih b'
    | err => rfl
    | panic => rfl

theorem newBatch_addAll_ok {σ : Type} {db : Database σ} {acc abs Inv}
    (h : Behaves db (fun _ => True) acc abs Inv) (s : σ) (hs : Inv s) (cs : List Cmd) :
    ∃ b, (db.newBatch s).addAll cs = .ok b ∧ (db.batch s b).2 = .ok () ∧
      abs (db.batch s b).1 = after acc (abs s) cs ∧ Inv (db.batch s b).1 := by
  have h1 := h.out s (.batch cs) hs trivial
  have h2 := h.next s (.batch cs) hs trivial
  have h3 := h.inv s (.batch cs) hs trivial
  simp only [Database.step, answer, Op.cmds] at h1 h2 h3
  cases hb : (db.newBatch s).addAll cs with
  | err => rw [hb] at h1; simp at h1
  | panic => rw [hb] at h1; simp at h1
  | ok b =>
    rw [hb] at h1 h2 h3
    refine ⟨b, rfl, ?_, h2, h3⟩
    simpa using h1

/-- What `BatchWrite` guarantees from a point of its loop with `pending` accepted items not yet written. -/
theorem bwLoop_spec {σ : Type} {db : Database σ} {acc abs Inv}
    (h : Behaves db (fun _ => True) acc abs Inv) (th : Int) :
    ∀ (items : List Action) (s : σ) (batch : Batch) (pending : List Action) (count : Nat),
      Inv s → Clean items →
      (pending ≠ [] → (db.newBatch s).addAll (pending.flatMap Action.cmds) = .ok batch) →
      ∃ n : Nat, n ≤ (pending ++ accepted items).length ∧
        (bwLoop db th items s batch pending.length count).count = count + n ∧
        abs (bwLoop db th items s batch pending.length count).state =
          after acc (abs s) (((pending ++ accepted items).take n).flatMap Action.cmds) ∧
        ((∀ a ∈ items, a.err = false) → (bwLoop db th items s batch pending.length count).res = .ok ()) ∧
        ((∃ a ∈ items, a.err = true) → (bwLoop db th items s batch pending.length count).res = .err) ∧
        ((∀ a ∈ items, a.err = false) → (∃ a, items.getLast? = some a ∧ a.ok = true) →
          n = (pending ++ accepted items).length) ∧
        (0 < th → (pending.length : Int) < th →
          ((pending ++ accepted items).length : Int) - n < th) := by
  intro items
  induction items with
  | nil =>
    intro s batch pending count hs _ _
    refine ⟨0, by simp, rfl, by simp [bwLoop, after_nil], fun _ => rfl, by simp, by simp, ?_⟩
    intro _ h; simpa [accepted] using h
  | cons a rest ih =>
    intro s batch pending count hs hcl hbatch
    have hclr : Clean rest := fun x hx => hcl x (by simp [hx])
    obtain ⟨b', hb1, hb2, hb3, hb4⟩ := newBatch_addAll_ok h s hs ((pending ++ [a]).flatMap Action.cmds)
    have hadd : (if pending.length = 0 then db.newBatch s else batch).addAll a.cmds = .ok b' := by
      by_cases hp : pending = []
      · subst hp
        simpa using hb1
      · have hl : pending.length ≠ 0 := by simpa using hp
        rw [if_neg hl]
        rw [List.flatMap_append, addAll_append, hbatch hp] at hb1
        simpa using hb1
    unfold bwLoop
    rw [hadd]
    simp only []
    by_cases he : a.err = true
    · rw [if_pos he]
      refine ⟨0, by simp, by simp, by simp [after_nil], ?_, fun _ => rfl, ?_, ?_⟩
      · intro hx; have := hx a (by simp); simp [he] at this
      · intro hx; have := hx a (by simp); simp [he] at this
      · intro _ hlt; simpa [accepted, he] using hlt
    · have he' : a.err = false := by simpa using he
      rw [if_neg he]
      by_cases ho : a.ok = true
      · have hacc : accepted (a :: rest) = a :: accepted rest := by simp [accepted, he', ho]
        rw [if_neg (by simp [ho]), hacc]
        by_cases hf : ((pending.length + 1 : Nat) : Int) = th ∨ rest = []
        · rw [if_pos hf]
          simp only [hb2]
          obtain ⟨n, n1, n2, n3, n4, n5, n6, n7⟩ := ih (db.batch s b').1 b' [] (count + (pending.length + 1)) hb4 hclr
            (by simp)
          simp only [List.nil_append, List.length_nil] at n1 n2 n3 n4 n5 n6 n7
          refine ⟨pending.length + 1 + n, ?_, ?_, ?_, ?_, ?_, ?_, ?_⟩
          · simp; omega
          · rw [n2]; omega
          · rw [n3, hb3, ← after_append, ← List.flatMap_append]
            congr 2
            rw [show pending ++ a :: accepted rest = (pending ++ [a]) ++ accepted rest by simp,
              List.take_append]
            have : (pending ++ [a]).length = pending.length + 1 := by simp
            rw [List.take_of_length_le (l := pending ++ [a]) (by rw [this]; omega), this,
              Nat.add_sub_cancel_left]
          · intro hx; exact n4 (fun x hx' => hx x (by simp [hx']))
          · rintro ⟨x, hx, hxe⟩
            rcases List.mem_cons.mp hx with rfl | hx
            · exact absurd hxe he
            · exact n5 ⟨x, hx, hxe⟩
          · intro hx hlast
            rcases hr : rest with _ | ⟨r, rs⟩
            · subst hr
              simp [accepted] at n1 ⊢; omega
            · have := n6 (fun x hx' => hx x (by simp [hx'])) (by
                obtain ⟨z, hz, hzo⟩ := hlast
                refine ⟨z, ?_, hzo⟩
                rw [hr] at hz ⊢
                simpa [List.getLast?_cons_cons] using hz)
              rw [hr] at this
              simp only [List.length_append, List.length_cons] at *; omega
          · intro ht _
            have := n7 ht (by simpa using ht)
            simp only [List.length_append, List.length_cons] at *; omega
        · rw [if_neg hf]
          have hne : ¬ ((pending.length + 1 : Nat) : Int) = th := fun e => hf (Or.inl e)
          have hre : rest ≠ [] := fun e => hf (Or.inr e)
          obtain ⟨n, n1, n2, n3, n4, n5, n6, n7⟩ := ih s b' (pending ++ [a]) count hs hclr (fun _ => hb1)
          have hl : (pending ++ [a]).length = pending.length + 1 := by simp
          rw [hl] at n2 n3 n4 n5 n7
          have hap : pending ++ a :: accepted rest = (pending ++ [a]) ++ accepted rest := by simp
          rw [hap]
          refine ⟨n, n1, n2, n3, ?_, ?_, ?_, ?_⟩
          · intro hx; exact n4 (fun x hx' => hx x (by simp [hx']))
          · rintro ⟨x, hx, hxe⟩
            rcases List.mem_cons.mp hx with rfl | hx
            · exact absurd hxe he
            · exact n5 ⟨x, hx, hxe⟩
          · intro hx hlast
            refine n6 (fun x hx' => hx x (by simp [hx'])) ?_
            obtain ⟨z, hz, hzo⟩ := hlast
            refine ⟨z, ?_, hzo⟩
            rcases rest with _ | ⟨r, rs⟩
            · exact absurd rfl hre
            · simpa [List.getLast?_cons_cons] using hz
          · intro ht hlt
            exact n7 ht (by push_cast at hne ⊢; omega)
      · have ho' : a.ok = false := by simpa using ho
        have hacc : accepted (a :: rest) = accepted rest := by simp [accepted, he', ho']
        have hcm : a.cmds = [] := hcl a (by simp) ho'
        rw [if_pos (by simp [ho']), hacc]
        obtain ⟨n, n1, n2, n3, n4, n5, n6, n7⟩ := ih s b' pending count hs hclr (by
          intro _; simpa [hcm] using hb1)
        refine ⟨n, n1, n2, n3, ?_, ?_, ?_, n7⟩
        · intro hx; exact n4 (fun x hx' => hx x (by simp [hx']))
        · rintro ⟨x, hx, hxe⟩
          rcases List.mem_cons.mp hx with rfl | hx
          · exact absurd hxe he
          · exact n5 ⟨x, hx, hxe⟩
        · intro hx hlast
          refine n6 (fun x hx' => hx x (by simp [hx'])) ?_
          obtain ⟨z, hz, hzo⟩ := hlast
          rcases rest with _ | ⟨r, rs⟩
          · simp at hz; subst hz; exact absurd hzo ho
          · exact ⟨z, by simpa [List.getLast?_cons_cons] using hz, hzo⟩

/-- C37 (partial): on a database that behaves as a map, for every callback behaviour in which rejected
items write nothing and for every threshold: the database holds exactly the writes of the first `count`
accepted items, in order; without errors at most `threshold - 1` accepted items are missing; an error is
reported exactly when a callback reports one; and nothing is missing when the last item is accepted. -/
theorem C37_batchWrite_partial {σ : Type} {db : Database σ} {acc abs Inv}
    (h : Behaves db (fun _ => True) acc abs Inv) (th : Int) (items : List Action) (hc : Clean items)
    (s : σ) (hs : Inv s) :
    (batchWrite db th items s).count ≤ (accepted items).length ∧
    abs (batchWrite db th items s).state = after acc (abs s)
      (((accepted items).take (batchWrite db th items s).count).flatMap Action.cmds) ∧
    ((batchWrite db th items s).res = .ok () ↔ ∀ a ∈ items, a.err = false) ∧
    ((∀ a ∈ items, a.err = false) → (∃ a, items.getLast? = some a ∧ a.ok = true) →
      (batchWrite db th items s).count = (accepted items).length) ∧
    (0 < th → ((accepted items).length : Int) - (batchWrite db th items s).count < th) := by
  obtain ⟨n, n1, n2, n3, n4, n5, n6, n7⟩ := bwLoop_spec h th items s .nil [] 0 hs hc (by simp)
  simp only [List.nil_append, List.length_nil, Nat.zero_add] at n1 n2 n3 n4 n5 n6 n7
  unfold batchWrite
  rw [n2]
  refine ⟨n1, n3, ⟨?_, n4⟩, n6, fun ht => n7 ht (by simpa using ht)⟩
  intro hr a ha
  by_contra hne
  rw [n5 ⟨a, ha, by simpa using hne⟩] at hr
  simp at hr

/-- All accepted items are written when no error is returned. -/
def WritesAll {σ : Type} (db : Database σ) (acc : Option Bytes → Option Bytes → Bool) (abs : σ → Bytes → Option Bytes) : Prop :=
  ∀ (th : Int) (items : List Action) (s : σ), Clean items → (batchWrite db th items s).res = .ok () →
    (batchWrite db th items s).count = (accepted items).length ∧
    abs (batchWrite db th items s).state = after acc (abs s) ((accepted items).flatMap Action.cmds)

/-- C37 is violated: when the last item is rejected, the accepted items still pending are lost although no
error is returned. -/
theorem C37_lost_tail_refuted : ¬ WritesAll memDB nonNil load := by
  intro h
  have := h 10 [⟨[.put (some [1]) (some [2])], true, false⟩, ⟨[], false, false⟩] [] (by
    intro a ha ho
    simp only [List.mem_cons, List.not_mem_nil, or_false] at ha
    rcases ha with rfl | rfl
    · simp at ho
    · rfl) (by decide +kernel)
  exact absurd this.1 (by decide +kernel)

example : (batchWrite memDB 2 [⟨[.put (some [1]) (some [2])], true, false⟩, ⟨[], false, false⟩,
    ⟨[.put (some [2]) (some [3])], true, false⟩, ⟨[.del (some [1])], true, false⟩] []).count = 3 ∧
    (batchWrite memDB 2 [⟨[.put (some [1]) (some [2])], true, false⟩, ⟨[], false, false⟩,
    ⟨[.put (some [2]) (some [3])], true, false⟩, ⟨[.del (some [1])], true, false⟩] []).state =
      [([2], [3])] := by decide +kernel

end Verif.DB

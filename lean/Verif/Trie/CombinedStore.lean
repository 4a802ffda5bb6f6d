import Verif.Trie.Combined
import Verif.Trie.Dump
import Verif.Trie.RevertProps

/-!
# Property C139: combined tries with their sub-tries and storage (/repo/trie/combinedtrie.go)

The sub-tries of a combined trie are the tries with storage of `Trie/Store.lean`; they share their node and value storage, and
the combined trie has its own.  A sub-trie is put once, as a new trie: the model has no two keys with the same pointer.  All
`Save` calls succeed.  The order in which `Commit` visits the Go map is a parameter.
-/

namespace Verif.Combined
open Verif Verif.Merkle Verif.Trie Verif.Trie.Store

variable {V : Type}

/-! ### Model -/

/-- `Trie.IsDirty` (`/repo/trie/trie.go:624-629`, `/repo/trie/node.go:306-308`). -/
def isDirty (t : BTrie V) : Bool :=
  match t.root with
  | .nil => false
  | .mk i _ => i.dirty

/-- A combined trie, the storage of its sub-tries and its own. -/
structure World (V : Type) where
  c : Comb (BTrie V)
  D : Disk
  top : Bytes → Option Bytes

/-- `HashValue` of a sub-trie. -/
def subHash (E : Env V) (t : BTrie V) : Res Bytes := .ok (t.hash E).2

/-- The sub-trie at a key changes. -/
def setAt {P : Type} (c : Comb P) (k : Bytes) (t : P) : Comb P := { c with vm := fun x => if x = k then some t else c.vm x }

/-- What `computeHash` leaves in the caches of the sub-tries (`/repo/trie/combinedtrie.go:97-108`). -/
def hashAll (E : Env V) (c : Comb (BTrie V)) : Comb (BTrie V) := { c with vm := fun k => (c.vm k).map fun t => (t.hash E).1 }

/-- `IsDirty` (`/repo/trie/combinedtrie.go:194-203`). -/
def Comb.isDirty (c : Comb (BTrie V)) : Bool := c.keys.any fun k => (c.vm k).any Combined.isDirty

/-- The loop of `Commit` (`/repo/trie/combinedtrie.go:208-216`) over the keys of the map in some order;
`F` says which `Save` calls fail. -/
def commitLoop (E : Env V) (F : Faults) (L : Limits) : List Bytes → Comb (BTrie V) → Disk → Comb (BTrie V) × Disk × Bool
  | [], c, D => (c, D, true)
  | k :: ks, c, D =>
    match c.vm k with
    | none => commitLoop E F L ks c D
    | some t =>
      if isDirty t then
        let r := t.commit E F L D
        if r.2.2 then commitLoop E F L ks (setAt c k r.1) r.2.1 else (setAt c k r.1, r.2.1, false)
      else commitLoop E F L ks c D

/-- `Commit` (`/repo/trie/combinedtrie.go:205-222`). -/
def World.commit (E : Env V) (F : Faults) (L : Limits) (order : List Bytes → List Bytes) (w : World V) : Res (World V × Bool) :=
  let r := commitLoop E F L (order w.c.keys) w.c w.D
  if !r.2.2 then .ok (⟨r.1, r.2.1, w.top⟩, false)
  else
    match r.1.saveRoot E.H E.R (subHash E) w.top with
    | .ok top => .ok (⟨hashAll E r.1, r.2.1, top⟩, true)
    | .err => .ok (⟨hashAll E r.1, r.2.1, w.top⟩, false)
    | .panic => .panic

/-- A commit, and a new combined trie initialised (`InitTrie`, `/repo/trie/combinedtrie.go:258-315`) at its hash over the same storage;
if that fails, the old one is kept. -/
def World.reopen (E : Env V) (F : Faults) (L : Limits) (order : List Bytes → List Bytes) (w : World V) : Res (World V × Bool) :=
  match w.commit E F L order with
  | .ok (w', true) =>
    match w'.c.hash E.H (subHash E) with
    | .ok root =>
      match (new (BTrie V)).initTrie E.R (fun h => openTrie (some h)) w'.top (some root) with
      | some c => .ok (⟨c, w'.D, w'.top⟩, true)
      | none => .ok (w', false)
    | .err => .ok (w', false)
    | .panic => .panic
  | .ok (w', false) => .ok (w', false)
  | .err => .err
  | .panic => .panic

/-- An order in which a map may be visited. -/
abbrev Order := { f : List Bytes → List Bytes // ∀ l, (f l).Perm l }

/-- The calls. -/
inductive COp (V : Type) where
  /-- `Put` of a new trie. -/
  | attach (k : Bytes)
  /-- `Delete`. -/
  | drop (k : Bytes)
  /-- A call on the sub-trie that `Get` returns. -/
  | call (k : Bytes) (op : SOp V)
  | keys
  | hash
  | commit (L : Limits) (order : Order)
  | reopen (L : Limits) (order : Order)

/-- The answers. -/
inductive COut (V : Type) where
  | flag (b : Bool)
  | absent
  | sub (o : Out V)
  | keys (l : List Bytes)
  | root (h : Bytes)
deriving DecidableEq

/-- One call. -/
def cstep (E : Env V) (w : World V) : COp V → Res (World V × COut V)
  | .attach k => let r := w.c.put (some k) (some (openTrie none)); .ok (⟨r.1, w.D, w.top⟩, .flag r.2)
  | .drop k =>
    match w.c.delete (some k) with
    | .ok (c, o) => .ok (⟨c, w.D, w.top⟩, .flag o.isSome)
    | .err => .err
    | .panic => .panic
  | .call k op =>
    match w.c.get (some k) with
    | none => .ok (w, .absent)
    | some t => let r := sstep E noFaults ⟨t, w.D⟩ op; .ok (⟨setAt w.c k r.1.t, r.1.D, w.top⟩, .sub r.2)
  | .keys => .ok (w, .keys w.c.keys)
  | .hash =>
    match w.c.hash E.H (subHash E) with
    | .ok h => .ok (⟨hashAll E w.c, w.D, w.top⟩, .root h)
    | .err => .err
    | .panic => .panic
  | .commit L o =>
    match w.commit E noFaults L o.1 with
    | .ok (w', b) => .ok (w', .flag b)
    | .err => .err
    | .panic => .panic
  | .reopen L o =>
    match w.reopen E noFaults L o.1 with
    | .ok (w', b) => .ok (w', .flag b)
    | .err => .err
    | .panic => .panic

/-- A sequence of calls. -/
def crun (E : Env V) (w : World V) : List (COp V) → Res (World V × List (COut V))
  | [] => .ok (w, [])
  | op :: ops =>
    match cstep E w op with
    | .ok (w', o) =>
      match crun E w' ops with
      | .ok (w'', os) => .ok (w'', o :: os)
      | .err => .err
      | .panic => .panic
    | .err => .err
    | .panic => .panic

/-! ### Specification: named tries that are only kept in memory -/

/-- The names, each with the calls made on its trie. -/
abbrev Hist (V : Type) := List (Bytes × List (Op V))

/-- The calls made on the trie with a name. -/
def find (l : Hist V) (k : Bytes) : Option (List (Op V)) := (l.find? fun p => p.1 == k).map (·.2)

/-- After a call. -/
def cnext (l : Hist V) : COp V → Hist V
  | .attach k => l.filter (fun p => p.1 ≠ k) ++ [(k, [])]
  | .drop k => l.filter fun p => p.1 ≠ k
  | .call k op => l.map fun p => if p.1 = k then (p.1, p.2 ++ op.call.toList) else p
  | _ => l

/-- The names in order. -/
def namesOf (l : Hist V) : List Bytes := sortCmp bytesCompare (l.map (·.1))

/-- The Merkle root of the root hashes, in the order of the names. -/
def rootOf (E : Env V) (l : Hist V) : Bytes :=
  if l = [] then E.H []
  else (merkleHashComplete E.H ((namesOf l).map fun k => ((find l k).map fun h => (newTrie.run h).hash E.H E.R E.vh).getD []) 0 none).1

/-- The answer to a call: tries answer for themselves, commits succeed, and reopening succeeds unless there is no trie. -/
def canswer (E : Env V) (l : Hist V) : COp V → COut V
  | .attach _ => .flag true
  | .drop k => .flag (find l k).isSome
  | .call k op =>
    match find l k with
    | none => .absent
    | some h => .sub (answerT E (newTrie.run h) op)
  | .keys => .keys (namesOf l)
  | .hash => .root (rootOf E l)
  | .commit _ _ => .flag true
  | .reopen _ _ => .flag (decide (l ≠ []))

/-- The answers to a sequence of calls. -/
def cexpect (E : Env V) : Hist V → List (COp V) → List (COut V)
  | _, [] => []
  | l, op :: ops => canswer E l op :: cexpect E (cnext l op) ops

/-! ### Lookups -/

theorem find_filter (l : Hist V) (k x : Bytes) : find (l.filter fun p => p.1 ≠ k) x = if x = k then none else find l x := by
  unfold find
  rw [List.find?_filter]
  split
  · rename_i h
    subst h
    rw [List.find?_eq_none.2]
    · rfl
    · intro p _; simp
  · rename_i h
    congr 2
    funext p
    by_cases hp : p.1 = x
    · simp [hp, h]
    · simp [hp]

theorem find_append (l l' : Hist V) (x : Bytes) : find (l ++ l') x = (find l x).or (find l' x) := by
  unfold find
  rw [List.find?_append]
  cases List.find? (fun p => p.1 == x) l <;> simp

theorem find_map (l : Hist V) (k x : Bytes) (os : List (Op V)) :
    find (l.map fun p => if p.1 = k then (p.1, p.2 ++ os) else p) x = if x = k then (find l x).map (· ++ os) else find l x := by
  unfold find
  rw [List.find?_map]
  have : ((fun p : Bytes × List (Op V) => p.1 == x) ∘ fun p => if p.1 = k then (p.1, p.2 ++ os) else p) = fun p => p.1 == x := by
    funext p
    simp only [Function.comp]
    split <;> rfl
  rw [this, Option.map_map, Option.map_map]
  cases hf : List.find? (fun p => p.1 == x) l with
  | none => simp
  | some p =>
    have hp := List.find?_some hf
    rw [beq_iff_eq] at hp
    subst hp
    simp only [Option.map_some, Function.comp]
    split <;> rfl

theorem find_isSome (l : Hist V) (x : Bytes) : (find l x).isSome = true ↔ x ∈ l.map (·.1) := by
  unfold find
  rw [Option.isSome_map, List.find?_isSome]
  simp [List.mem_map]

/-! ### Invariant -/

variable {E : Env V}

/-- Each sub-trie stands for the trie in memory with its name. -/
structure WInv (E : Env V) (c : Comb (BTrie V)) (D : Disk) (l : Hist V) : Prop where
  comb : Inv c
  disk : D.ok
  nodup : (l.map (·.1)).Nodup
  rel : ∀ k, Option.Rel (fun t h => Rep E D t.root (newTrie.run h).root ∧ Every neat t.root) (c.vm k) (find l k)

theorem WInv.keys {c : Comb (BTrie V)} {D : Disk} {l : Hist V} (h : WInv E c D l) : c.keys = namesOf l := by
  refine StrictSorted.ext bytesCompare_lawful h.comb.sorted (strictSorted_sortCmp bytesCompare_lawful h.nodup) ?_
  intro x
  rw [namesOf, mem_sortCmp, ← find_isSome, h.comb.dom]
  have := h.rel x
  generalize c.vm x = a at this
  generalize find l x = b at this
  cases this <;> simp

theorem WInv.keys_nil {c : Comb (BTrie V)} {D : Disk} {l : Hist V} (h : WInv E c D l) : c.keys = [] ↔ l = [] := by
  rw [h.keys, namesOf]
  constructor
  · intro e
    have := (sortCmp_perm (cmp := bytesCompare) (l.map (·.1))).length_eq
    rw [e] at this
    simpa using this.symm
  · rintro rfl; rfl

theorem WInv.hash {c : Comb (BTrie V)} {D : Disk} {l : Hist V} (h : WInv E c D l) :
    c.hash E.H (subHash E) = .ok (rootOf E l) := by
  unfold Comb.hash rootOf
  by_cases hk : c.keys = []
  · rw [if_pos hk, if_pos (h.keys_nil.1 hk)]; rfl
  · rw [if_neg hk, if_neg (fun e => hk (h.keys_nil.2 e))]
    rw [(hashes_spec (f := fun t => (t.hash E).2) c.keys fun k hk => ?_).1]
    · simp only
      rw [h.keys]
      congr 3
      apply List.map_congr_left
      intro k _
      have := h.rel k
      generalize c.vm k = a at this
      generalize find l k = b at this
      cases this with
      | none => rfl
      | some hr =>
        simp only [Option.map_some, Option.getD_some]
        exact (hash_step hr.1 (wf_run _)).1
    · obtain ⟨t, ht⟩ := Option.isSome_iff_exists.1 ((h.comb.dom k).1 hk)
      exact ⟨t, ht, rfl⟩

theorem WInv.hashAll {c : Comb (BTrie V)} {D : Disk} {l : Hist V} (h : WInv E c D l) : WInv E (hashAll E c) D l := by
  refine ⟨⟨h.comb.sorted, fun k => ?_⟩, h.disk, h.nodup, fun k => ?_⟩
  · rw [Combined.hashAll]; simp only [Option.isSome_map]; exact h.comb.dom k
  · have := h.rel k
    rw [Combined.hashAll]
    simp only
    generalize c.vm k = a at this
    generalize find l k = b at this
    cases this with
    | none => exact .none
    | some hr => exact .some ⟨(hash_step hr.1 (wf_run _)).2, neat_hashed _ hr.2⟩

theorem inv_setAt {P : Type} {c : Comb P} (h : Inv c) {k : Bytes} (hk : (c.vm k).isSome = true) (t : P) : Inv (setAt c k t) := by
  refine ⟨h.sorted, fun x => ?_⟩
  rw [show (setAt c k t).keys = c.keys from rfl, h.dom]
  unfold setAt
  simp only
  split
  · rename_i e; subst e; simp [hk]
  · rfl

section
variable (hE : E.Lawful) {T : Node V → Prop} (hA : Apart E T)
include hE hA

theorem sstep_ext {h : List (Op V)} {s : Sess V} (hs : SInv E s h) (op : SOp V) (hT : T (newTrie.run h).root) :
    Ext E (nodesOf T) s.D (sstep E noFaults s op).1.D := by
  by_cases hop : op.reads = true
  · rw [(sstep_reads hE noFaults hs.rep op hop).2.1]; exact Ext.refl _
  have hwf := wf_run h
  have hT0 : nodesOf T (newTrie.run h).root := ⟨hwf.isSome, _, hT, Sub.refl _⟩
  cases op with
  | commit L => exact (commit_step hE (hA.ghost hE) (noFaults_harmless E _) L hs.disk hs.rep hwf hT0).2.2.1
  | reopen L g => exact (commit_step hE (hA.ghost hE) (noFaults_harmless E _) L hs.disk hs.rep hwf hT0).2.2.1
  | get k => simp [SOp.reads] at hop
  | put k x => simp [SOp.reads] at hop
  | del k => simp [SOp.reads] at hop
  | hash => simp [SOp.reads] at hop
  | fold n v => simp [SOp.reads] at hop

/-- A call on one sub-trie. -/
theorem call_inv {c : Comb (BTrie V)} {D : Disk} {l : Hist V} (hw : WInv E c D l) (hT : ∀ k h, find l k = some h → T (newTrie.run h).root)
    {k : Bytes} {t : BTrie V} (hk : c.vm k = some t) (op : SOp V) :
    ∃ h, find l k = some h ∧ (sstep E noFaults ⟨t, D⟩ op).2 = answerT E (newTrie.run h) op ∧
      WInv E (setAt c k (sstep E noFaults ⟨t, D⟩ op).1.t) (sstep E noFaults ⟨t, D⟩ op).1.D
        (l.map fun p => if p.1 = k then (p.1, p.2 ++ op.call.toList) else p) := by
  have hr := hw.rel k
  rw [hk] at hr
  generalize hf : find l k = o at hr
  cases hr with
  | @some _ h hr =>
    have hs : SInv E ⟨t, D⟩ h := ⟨hw.disk, hr.1⟩
    obtain ⟨h1, h2⟩ := sstep_spec hE hA (noFaults_harmless E _) hs op (hT k h hf)
    have hext := sstep_ext hE hA hs op (hT k h hf)
    refine ⟨h, rfl, h1, inv_setAt hw.comb (by rw [hk]; rfl) _, h2.disk, ?_, ?_⟩
    · have : (l.map fun p => if p.1 = k then (p.1, p.2 ++ op.call.toList) else p).map (·.1) = l.map (·.1) := by
        rw [List.map_map]
        apply List.map_congr_left
        intro p _
        simp only [Function.comp]
        split <;> rfl
      rw [this]; exact hw.nodup
    · intro x
      rw [find_map]
      unfold setAt
      simp only
      split
      · rename_i e
        subst e
        rw [hf]
        exact .some ⟨h2.rep, neat_step _ _ hr.2⟩
      · have := hw.rel x
        generalize ha : c.vm x = a at this
        generalize hb : find l x = b at this
        cases this with
        | none => exact .none
        | @some t' h' hr' =>
          refine .some ⟨rep_ext (hA.ghost hE) hext _ ?_ hr'.1, hr'.2⟩
          intro hs
          exact ⟨hs, _, hT x h' hb, Sub.refl _⟩

omit hE hA in
theorem map_nil_call (l : Hist V) (k : Bytes) : (l.map fun p => if p.1 = k then (p.1, p.2 ++ ([] : List (Op V))) else p) = l := by
  conv_rhs => rw [← List.map_id l]
  apply List.map_congr_left
  intro p _
  split <;> simp

omit hE hA in
theorem clean_notDirty {t : BTrie V} (h : Clean t.root) : isDirty t = false := by
  unfold isDirty
  split
  · rfl
  · rename_i i c hr
    rw [hr] at h
    exact h.1.1

theorem commitLoop_spec (L : Limits) {l : Hist V} (hT : ∀ k h, find l k = some h → T (newTrie.run h).root) : ∀ (ks : List Bytes)
    {c : Comb (BTrie V)} {D : Disk}, WInv E c D l →
    (commitLoop E noFaults L ks c D).2.2 = true ∧ (commitLoop E noFaults L ks c D).1.keys = c.keys ∧
    WInv E (commitLoop E noFaults L ks c D).1 (commitLoop E noFaults L ks c D).2.1 l ∧
    (∀ k t, (k ∈ ks ∨ ∀ u, c.vm k = some u → isDirty u = false) → (commitLoop E noFaults L ks c D).1.vm k = some t → isDirty t = false) := by
  intro ks
  induction ks with
  | nil =>
    intro c D hw
    refine ⟨rfl, rfl, hw, ?_⟩
    intro k t hk ht
    rcases hk with hk | hk
    · cases hk
    · exact hk t ht
  | cons k ks ih =>
    intro c D hw
    rw [commitLoop]
    cases hk : c.vm k with
    | none =>
      simp only
      obtain ⟨h1, h2, h3, h4⟩ := ih hw
      refine ⟨h1, h2, h3, ?_⟩
      intro x t hx ht
      refine h4 x t ?_ ht
      rcases hx with hx | hx
      · rcases List.mem_cons.1 hx with rfl | hx
        · right; intro u hu; rw [hk] at hu; cases hu
        · exact Or.inl hx
      · exact Or.inr hx
    | some t0 =>
      simp only
      by_cases hd : isDirty t0 = true
      · rw [if_pos hd]
        obtain ⟨h, hf, ha, hw'⟩ := call_inv hE hA hw hT hk (.commit L)
        simp only [SOp.call, Option.toList] at hw'
        rw [map_nil_call] at hw'
        simp only [sstep] at ha hw'
        rw [show (t0.commit E noFaults L D).2.2 = true from by simpa [answerT] using ha, if_pos rfl]
        obtain ⟨h1, h2, h3, h4⟩ := ih hw'
        refine ⟨h1, h2, h3, ?_⟩
        intro x t hx ht
        refine h4 x t ?_ ht
        by_cases e : x = k
        · subst e
          right
          intro u hu
          simp only [setAt, if_true, Option.some.injEq] at hu
          subst hu
          refine clean_notDirty ?_
          have hr := hw.rel x
          rw [hk, hf] at hr
          cases hr with
          | some hr => exact clean_save L _ _ _ hr.2
        · rcases hx with hx | hx
          · rcases List.mem_cons.1 hx with rfl | hx
            · exact absurd rfl e
            · exact Or.inl hx
          · right
            intro u hu
            simp only [setAt, if_neg e] at hu
            exact hx u hu
      · rw [if_neg hd]
        obtain ⟨h1, h2, h3, h4⟩ := ih hw
        refine ⟨h1, h2, h3, ?_⟩
        intro x t hx ht
        refine h4 x t ?_ ht
        rcases hx with hx | hx
        · rcases List.mem_cons.1 hx with rfl | hx
          · right; intro u hu; rw [hk, Option.some.injEq] at hu; subst hu; simpa using hd
          · exact Or.inl hx
        · exact Or.inr hx

omit hE hA in
/-- A trie that is not dirty is in the storage. -/
theorem notDirty_stored {D : Disk} {t : BTrie V} {a : Node V} (hr : Rep E D t.root a) (hd : isDirty t = false) :
    ∀ p v c, a = .mk p v c → isEmpty p v c = false → Stored E D a := by
  intro p v c ha he
  unfold isDirty at hd
  cases hroot : t.root with
  | nil =>
    rw [hroot] at hr
    rw [show a = .nil from hr] at ha
    cases ha
  | mk i d =>
    rw [hroot] at hr hd
    obtain ⟨p', v', c', e, hr⟩ := hr
    rcases hr with hr | ⟨hr, -⟩
    · exact hr.stored
    · rw [ha] at e
      cases e
      rcases hr.clean hd with h | h
      · rw [he] at h; cases h
      · rw [ha]; exact h.2

omit hE hA in
theorem hashAll_notDirty {c : Comb (BTrie V)} {D : Disk} {l : Hist V} (hw : WInv E c D l)
    (hd : ∀ k t, c.vm k = some t → isDirty t = false) : ∀ k t, (hashAll E c).vm k = some t → isDirty t = false := by
  intro k t ht
  simp only [hashAll, Option.map_eq_some_iff] at ht
  obtain ⟨u, hu, rfl⟩ := ht
  have h0 := hd k u hu
  have hr := hw.rel k
  rw [hu] at hr
  generalize find l k = o at hr
  cases hr with
  | @some _ h hr =>
    unfold isDirty at h0 ⊢
    simp only [BTrie.hash]
    cases hroot : u.root with
    | nil => rfl
    | mk i d =>
      rw [hroot] at h0 hr
      obtain ⟨i', d', e, -, e', -⟩ := (hashed_spec _ hr.1).2.2 i d rfl
      rw [e]
      simp only
      rw [e']; exact h0

/-- A commit. -/
theorem commit_inv (L : Limits) (o : Order) {w : World V} {l : Hist V} (hT : ∀ k h, find l k = some h → T (newTrie.run h).root)
    (hw : WInv E w.c w.D l) :
    ∃ w', w.commit E noFaults L o.1 = .ok (w', true) ∧ WInv E w'.c w'.D l ∧ (∀ k t, w'.c.vm k = some t → isDirty t = false) ∧
      w'.c.keys = w.c.keys ∧
      (w.c.keys = [] → w'.top (rootOf E l) = some []) ∧
      (w.c.keys ≠ [] → ∃ c', (new (BTrie V)).initTrie E.R (fun h => openTrie (some h)) w'.top (some (rootOf E l)) = some c' ∧
        c'.keys = w.c.keys ∧ ∀ k, c'.vm k = (w'.c.vm k).map fun t => openTrie (some (t.hash E).2)) := by
  obtain ⟨h1, h2, h3, h4⟩ := commitLoop_spec hE hA L hT (o.1 w.c.keys) hw
  unfold World.commit
  simp only
  generalize commitLoop E noFaults L (o.1 w.c.keys) w.c w.D = r at h1 h2 h3 h4
  obtain ⟨c, D, b⟩ := r
  simp only at h1 h2 h3 h4
  subst h1
  have hd : ∀ k t, c.vm k = some t → isDirty t = false := by
    intro k t ht
    refine h4 k t (Or.inl ?_) ht
    rw [(o.2 _).mem_iff, ← h2, h3.comb.dom, ht]
    rfl
  have hall : ∀ k ∈ c.keys, ∃ t, c.vm k = some t ∧ subHash E t = .ok ((fun t : BTrie V => (t.hash E).2) t) := by
    intro k hk
    obtain ⟨t, ht⟩ := Option.isSome_iff_exists.1 ((h3.comb.dom k).1 hk)
    exact ⟨t, ht, rfl⟩
  simp only [Bool.not_true, Bool.false_eq_true, if_false]
  have hdouble : ∀ t : BTrie V, ∀ h : List (Op V), Rep E D t.root (newTrie.run h).root → ((t.hash E).1.hash E).2 = (t.hash E).2 := by
    intro t h hr
    rw [(hash_step hr (wf_run h)).1, (hash_step (hash_step hr (wf_run h)).2 (wf_run h)).1]
  by_cases hk : c.keys = []
  · have hs : c.saveRoot E.H E.R (subHash E) w.top = .ok fun k => if k = rootOf E l then some [] else w.top k := by
      simp only [Comb.saveRoot, hk, pairs, h3.hash, encPairs]
    rw [hs]
    refine ⟨_, rfl, h3.hashAll, hashAll_notDirty h3 hd, h2, ?_, ?_⟩
    · intro _; simp
    · intro hne; rw [← h2] at hne; exact absurd hk hne
  · obtain ⟨root, D', e1, e2, e3⟩ := reopen_inv E.H E.R hE.hR h3.comb (subHash E) (fun t => (t.hash E).2) (fun _ _ _ => rfl) hk w.top
      (fun h => openTrie (some h))
    rw [h3.hash, Res.ok.injEq] at e1
    rw [e2]
    refine ⟨_, rfl, h3.hashAll, hashAll_notDirty h3 hd, h2, ?_, ?_⟩
    · intro hne; rw [← h2] at hne; exact absurd hne hk
    · intro _
      obtain ⟨c', f1, f2, f3, -⟩ := e3 D' rfl
      rw [e1]
      refine ⟨c', f1, f2.trans h2, ?_⟩
      intro k
      have := f3 k
      simp only [Comb.get] at this
      rw [this]
      have hr := h3.rel k
      simp only [hashAll]
      generalize c.vm k = a at hr
      generalize find l k = b at hr
      cases hr with
      | none => rfl
      | some hr =>
        simp only [Option.map_some, Option.some.injEq]
        rw [hdouble _ _ hr.1]

theorem cstep_spec {w : World V} {l : Hist V} (hT : ∀ k h, find l k = some h → T (newTrie.run h).root) (hw : WInv E w.c w.D l) (op : COp V) :
    ∃ w', cstep E w op = .ok (w', canswer E l op) ∧ WInv E w'.c w'.D (cnext l op) := by
  cases op with
  | attach k =>
    obtain ⟨c', h1, h2, h3⟩ := step_spec hw.comb (.put (some k) (some (openTrie none)))
    simp only [step, Res.ok.injEq, Prod.mk.injEq] at h1
    refine ⟨_, rfl, ?_⟩
    simp only
    rw [h1.1]
    refine ⟨h3, hw.disk, ?_, ?_⟩
    · simp only [cnext, List.map_append, List.map_cons, List.map_nil]
      rw [List.nodup_append]
      refine ⟨hw.nodup.sublist (List.Sublist.map _ List.filter_sublist), by simp, ?_⟩
      intro a ha b hb
      rw [List.mem_singleton] at hb
      subst hb
      rw [List.mem_map] at ha
      obtain ⟨p, hp, rfl⟩ := ha
      simpa using (List.mem_filter.1 hp).2
    · intro x
      rw [h2]
      simp only [specStep, cnext, find_append, find_filter]
      split
      · rename_i e
        subst e
        simp only [Option.none_or]
        simp only [find, List.find?_cons, beq_self_eq_true, Option.map_some]
        exact .some ⟨rep_openNil, every_new good_neat _ _⟩
      · rename_i e
        have : find [(k, ([] : List (Op V)))] x = none := by
          simp only [find, List.find?_cons]
          rw [show (k == x) = false from by simpa using fun h => e h.symm]
          rfl
        rw [this, Option.or_none]
        exact hw.rel x
  | drop k =>
    obtain ⟨c', h1, h2, h3⟩ := step_spec hw.comb (.delete (some k))
    rw [cstep]
    rw [step] at h1
    cases hd : w.c.delete (some k) with
    | err => rw [hd] at h1; cases h1
    | panic => rw [hd] at h1; cases h1
    | ok r =>
      obtain ⟨c, o⟩ := r
      rw [hd] at h1
      simp only [Res.ok.injEq, Prod.mk.injEq, specStep, Ret.delete.injEq] at h1
      obtain ⟨rfl, rfl⟩ := h1
      refine ⟨⟨c, w.D, w.top⟩, ?_, h3, hw.disk, ?_, ?_⟩
      · have := hw.rel k
        simp only [canswer]
        generalize w.c.vm k = a at this
        generalize find l k = b at this
        cases this <;> rfl
      · exact hw.nodup.sublist (List.Sublist.map _ List.filter_sublist)
      · intro x
        simp only
        rw [h2]
        simp only [specStep, cnext, find_filter]
        split
        · exact .none
        · exact hw.rel x
  | call k op =>
    rw [cstep]
    cases hk : w.c.get (some k) with
    | none =>
      have hf : find l k = none := by
        have := hw.rel k
        rw [show w.c.vm k = none from hk] at this
        generalize find l k = b at this
        cases this; rfl
      refine ⟨w, by simp only [canswer, hf], ?_⟩
      have : cnext l (.call k op) = l := by
        simp only [cnext]
        conv_rhs => rw [← List.map_id l]
        apply List.map_congr_left
        intro p hp
        rw [if_neg]
        · rfl
        · rintro rfl
          have := (find_isSome l p.1).2 (List.mem_map_of_mem hp)
          rw [hf] at this
          cases this
      rw [this]; exact hw
    | some t =>
      obtain ⟨h, h1, h2, h3⟩ := call_inv hE hA hw hT hk op
      refine ⟨⟨_, _, w.top⟩, ?_, h3⟩
      simp only [canswer, h1, h2]
      rfl
  | keys => exact ⟨w, by rw [cstep, hw.keys]; rfl, hw⟩
  | hash =>
    rw [cstep, hw.hash]
    exact ⟨_, rfl, hw.hashAll⟩
  | commit L o =>
    obtain ⟨w', h1, h2, -⟩ := commit_inv hE hA L o hT hw
    rw [cstep, h1]
    exact ⟨w', rfl, h2⟩
  | reopen L o =>
    obtain ⟨w', h1, h2, h3, h4, h5, h6⟩ := commit_inv hE hA L o hT hw
    rw [cstep, World.reopen, h1]
    simp only
    rw [h2.hash]
    simp only
    by_cases hk : w.c.keys = []
    · have hn : (new (BTrie V)).initTrie E.R (fun h => openTrie (some h)) w'.top (some (rootOf E l)) = none := by
        simp only [Comb.initTrie, h5 hk, Option.getD_some, if_true]
      rw [hn]
      refine ⟨w', ?_, h2⟩
      simp only [canswer, hw.keys_nil.1 hk]
      rfl
    · obtain ⟨c', e1, e2, e3⟩ := h6 hk
      rw [e1]
      refine ⟨⟨c', w'.D, w'.top⟩, ?_, ?_⟩
      · simp only [canswer]
        rw [decide_eq_true (show l ≠ [] from fun e => hk (hw.keys_nil.2 e))]
      · refine ⟨⟨?_, ?_⟩, h2.disk, h2.nodup, ?_⟩
        · simp only; rw [e2]; exact hw.comb.sorted
        · intro x
          simp only
          rw [e2, e3, Option.isSome_map, ← h4]
          exact h2.comb.dom x
        · intro x
          simp only
          rw [e3]
          have hr := h2.rel x
          generalize ha : w'.c.vm x = a at hr
          simp only [cnext]
          generalize hb : find l x = b at hr
          cases hr with
          | none => exact .none
          | @some t h hr =>
            refine .some ⟨?_, every_new good_neat _ _⟩
            simp only
            rw [(hash_step hr.1 (wf_run _)).1]
            exact rep_open (wf_run _) (notDirty_stored hr.1 (h3 x t ha)) 1

/-- The trees of the named tries, before and after each call. -/
def Within (T : Node V → Prop) : Hist V → List (COp V) → Prop
  | l, [] => ∀ k h, find l k = some h → T (newTrie.run h).root
  | l, op :: ops => (∀ k h, find l k = some h → T (newTrie.run h).root) ∧ Within T (cnext l op) ops

theorem crun_spec : ∀ (ops : List (COp V)) {w : World V} {l : Hist V}, Within T l ops → WInv E w.c w.D l →
    ∃ w', crun E w ops = .ok (w', cexpect E l ops) ∧ WInv E w'.c w'.D (ops.foldl cnext l) := by
  intro ops
  induction ops with
  | nil => intro w l _ hw; exact ⟨w, rfl, hw⟩
  | cons op ops ih =>
    intro w l hT hw
    obtain ⟨w', h1, h2⟩ := cstep_spec hE hA hT.1 hw op
    obtain ⟨w'', h3, h4⟩ := ih hT.2 h2
    exact ⟨w'', by rw [crun, h1]; simp only; rw [h3]; rfl, h4⟩

end

/-! ### C139 -/

/-- The trees of the named tries on the way through the calls, and the empty tree. -/
def subTrees (ops : List (COp V)) : Node V → Prop := fun a =>
  a = (newTrie (V := V)).root ∨ ∃ pre, pre <+: ops ∧ ∃ k h, find (pre.foldl cnext []) k = some h ∧ a = (newTrie.run h).root

theorem within_of {T : Node V → Prop} : ∀ (ops : List (COp V)) (l : Hist V),
    (∀ pre, pre <+: ops → ∀ k h, find (pre.foldl cnext l) k = some h → T (newTrie.run h).root) → Within T l ops := by
  intro ops
  induction ops with
  | nil => intro l h; exact h [] List.nil_prefix
  | cons op ops ih =>
    intro l h
    refine ⟨h [] List.nil_prefix, ih _ fun pre hp => ?_⟩
    exact h (op :: pre) (List.cons_prefix_cons.2 ⟨rfl, hp⟩)

theorem within_subTrees (ops : List (COp V)) : Within (subTrees ops) [] ops :=
  within_of ops [] fun pre hp k h hf => Or.inr ⟨pre, hp, k, h, hf, rfl⟩

/-- A new combined trie over some storage. -/
def fresh (D : Disk) (top : Bytes → Option Bytes) : World V := ⟨new _, D, top⟩

theorem fresh_inv {D : Disk} (hD : D.ok) (top : Bytes → Option Bytes) : WInv E (fresh D top).c (fresh D top : World V).D [] :=
  ⟨inv_new, hD, List.nodup_nil, fun _ => .none⟩

/-- **C139** Whatever calls are made on a combined trie and its sub-tries, and whenever it is committed, in whatever order `Commit`
visits the sub-tries, and opened again at its hash: every call is answered as if the sub-tries were kept in memory, and the
hash is the Merkle root of their root hashes in the order of the keys. -/
theorem C139_sessions (hE : E.Lawful) (ops : List (COp V)) (hA : Apart E (subTrees ops)) (D : Disk) (hD : D.ok) (top : Bytes → Option Bytes) :
    ∃ w, crun E (fresh D top) ops = .ok (w, cexpect E [] ops) := by
  obtain ⟨w, h, -⟩ := crun_spec hE hA ops (within_subTrees ops) (fresh_inv hD top)
  exact ⟨w, h⟩

theorem crun_append (w : World V) (a b : List (COp V)) :
    crun E w (a ++ b) = match crun E w a with
      | .ok (w', x) => (match crun E w' b with
        | .ok (w'', y) => .ok (w'', x ++ y)
        | .err => .err
        | .panic => .panic)
      | .err => .err
      | .panic => .panic := by
  induction a generalizing w with
  | nil =>
    simp only [List.nil_append, crun]
    cases crun E w b with
    | ok r => rfl
    | err => rfl
    | panic => rfl
  | cons op a ih =>
    rw [List.cons_append, crun, crun]
    cases cstep E w op with
    | err => rfl
    | panic => rfl
    | ok r =>
      obtain ⟨w', o⟩ := r
      simp only
      rw [ih]
      cases crun E w' a with
      | err => rfl
      | panic => rfl
      | ok r =>
        obtain ⟨w'', x⟩ := r
        simp only
        cases crun E w'' b with
        | err => rfl
        | panic => rfl
        | ok r => rfl

theorem cexpect_append (a b : List (COp V)) (l : Hist V) :
    cexpect E l (a ++ b) = cexpect E l a ++ cexpect E (a.foldl cnext l) b := by
  induction a generalizing l with
  | nil => rfl
  | cons op a ih => simp only [List.cons_append, cexpect, ih, List.foldl_cons]

/-- **C139** After `Commit`, `IsDirty` says no. -/
theorem C139_committed (hE : E.Lawful) (ops : List (COp V)) (hA : Apart E (subTrees ops)) (D : Disk) (hD : D.ok) (top : Bytes → Option Bytes)
    (L : Limits) (o : Order) : ∃ w r, crun E (fresh D top) (ops ++ [.commit L o]) = .ok (w, r ++ [.flag true]) ∧ w.c.isDirty = false := by
  obtain ⟨w, h, hw⟩ := crun_spec hE hA ops (within_subTrees ops) (fresh_inv hD top)
  have hT : ∀ k h, find (ops.foldl cnext []) k = some h → subTrees ops (newTrie.run h).root :=
    fun k h hf => Or.inr ⟨ops, List.prefix_refl _, k, h, hf, rfl⟩
  obtain ⟨w', h1, h2, h3, -⟩ := commit_inv hE hA L o hT hw
  refine ⟨w', cexpect E [] ops, ?_, ?_⟩
  · rw [crun_append, h]
    simp only [crun, cstep, h1]
  · rw [Comb.isDirty, List.any_eq_false]
    intro k _
    cases hv : w'.c.vm k with
    | none => simp
    | some t => simp [h3 k t hv]

/-- The contents of a map of maps after a call. -/
def mapStep (m : Bytes → Option (Bytes → Option V)) : COp V → Bytes → Option (Bytes → Option V)
  | .attach k => fun x => if x = k then some (fun _ => none) else m x
  | .drop k => fun x => if x = k then none else m x
  | .call k (.put key v) => fun x => if x = k then (m x).map fun f y => if y = key then some v else f y else m x
  | .call k (.del key) => fun x => if x = k then (m x).map fun f y => if y = key then none else f y else m x
  | _ => m

theorem mapStep_spec (l : Hist V) (m : Bytes → Option (Bytes → Option V)) (h : ∀ x, (find l x).map spec = m x) (op : COp V) :
    ∀ x, (find (cnext l op) x).map spec = mapStep m op x := by
  intro x
  have hx := h x
  cases op with
  | attach k =>
    simp only [cnext, mapStep, find_append, find_filter]
    split
    · rename_i e
      subst e
      simp only [Option.none_or, find, List.find?_cons, beq_self_eq_true, Option.map_some]
      rfl
    · rename_i e
      have : find [(k, ([] : List (Op V)))] x = none := by
        simp only [find, List.find?_cons]
        rw [show (k == x) = false from by simpa using fun h => e h.symm]
        rfl
      rw [this, Option.or_none, hx]
  | drop k =>
    simp only [cnext, mapStep, find_filter]
    split
    · rfl
    · exact hx
  | call k op =>
    simp only [cnext, find_map]
    cases op with
    | put key v =>
      simp only [mapStep, ← hx]
      split
      · simp only [Option.map_map]
        congr 1
        funext h
        simp [SOp.call, spec, Trie.specStep, Function.comp]
      · rfl
    | del key =>
      simp only [mapStep, ← hx]
      split
      · simp only [Option.map_map]
        congr 1
        funext h
        simp [SOp.call, spec, Trie.specStep, Function.comp]
      · rfl
    | get key => simpa [mapStep, SOp.call] using hx
    | hash => simpa [mapStep, SOp.call] using hx
    | commit L => simpa [mapStep, SOp.call] using hx
    | fold n v => simpa [mapStep, SOp.call] using hx
    | reopen L g => simpa [mapStep, SOp.call] using hx
  | keys => exact hx
  | hash => exact hx
  | commit L o => exact hx
  | reopen L o => exact hx

/-- The map of maps after the calls. -/
def mapOf (ops : List (COp V)) : Bytes → Option (Bytes → Option V) := ops.foldl mapStep fun _ => none

theorem mapOf_spec (ops : List (COp V)) : ∀ x, (find (ops.foldl cnext []) x).map spec = mapOf ops x := by
  have : ∀ (ops : List (COp V)) (l : Hist V) (m), (∀ x, (find l x).map spec = m x) →
      ∀ x, (find (ops.foldl cnext l) x).map spec = ops.foldl mapStep m x := by
    intro ops
    induction ops with
    | nil => intro l m h; exact h
    | cons op ops ih => intro l m h; exact ih _ _ (mapStep_spec l m h op)
  exact this ops [] _ fun _ => rfl

/-- The key of a call on a sub-trie. -/
def COp.key : COp V → Option Bytes
  | .call _ op => op.key
  | _ => none

theorem hist_keys {K : Bytes → Prop} (ops : List (COp V)) (hk : ∀ op ∈ ops, ∀ k, op.key = some k → K k) :
    ∀ x h, find (ops.foldl cnext []) x = some h → ∀ o ∈ h, K o.key := by
  have : ∀ (ops : List (COp V)) (l : Hist V), (∀ op ∈ ops, ∀ k, op.key = some k → K k) → (∀ p ∈ l, ∀ o ∈ p.2, K o.key) →
      ∀ p ∈ ops.foldl cnext l, ∀ o ∈ p.2, K o.key := by
    intro ops
    induction ops with
    | nil => intro l _ h; exact h
    | cons op ops ih =>
      intro l hk h
      refine ih _ (fun op' h' => hk op' (List.mem_cons_of_mem _ h')) ?_
      have hop := hk op List.mem_cons_self
      cases op with
      | attach k =>
        intro p hp
        simp only [cnext, List.mem_append, List.mem_singleton] at hp
        rcases hp with hp | rfl
        · exact h p (List.mem_filter.1 hp).1
        · intro o ho; cases ho
      | drop k =>
        intro p hp
        exact h p (List.mem_filter.1 hp).1
      | call k op =>
        intro p hp
        simp only [cnext, List.mem_map] at hp
        obtain ⟨q, hq, rfl⟩ := hp
        split
        · intro o ho
          simp only [List.mem_append] at ho
          rcases ho with ho | ho
          · exact h q hq o ho
          · exact hop _ (call_key (Option.mem_toList.1 ho))
        · exact h q hq
      | keys => exact h
      | hash => exact h
      | commit L o => exact h
      | reopen L o => exact h
  intro x h hf
  unfold find at hf
  obtain ⟨p, hp, rfl⟩ := Option.map_eq_some_iff.1 hf
  exact this ops [] hk (fun p hp => nomatch hp) p (List.mem_of_find?_eq_some hp)

/-- **C139** In terms of contents: a combined trie of tries with prefix-free keys, committed and opened again at its hash, holds under
every name and key the value last put there. -/
theorem C139_contents (hE : E.Lawful) (K : Bytes → Prop) (hK : PrefixFree K) (ops : List (COp V))
    (hk : ∀ op ∈ ops, ∀ k, op.key = some k → K k) (hA : Apart E (subTrees ops)) (D : Disk) (hD : D.ok) (top : Bytes → Option Bytes)
    (L : Limits) (o : Order) (name key : Bytes) (hkey : K key) :
    ∃ w r b, crun E (fresh D top) (ops ++ [.reopen L o, .call name (.get key)]) =
      .ok (w, r ++ [.flag b, match mapOf ops name with | none => .absent | some m => .sub (.value (m key))]) ∧
      ((mapOf ops name).isSome = true → b = true) := by
  have hA' : Apart E (subTrees (ops ++ [.reopen L o, .call name (.get key)])) := by
    have hsub : ∀ a, subTrees (ops ++ [.reopen L o, .call name (.get key)]) a → subTrees ops a := by
      rintro a (h | ⟨pre, hp, k, h, hf, rfl⟩)
      · exact Or.inl h
      · right
        rcases List.prefix_or_prefix_of_prefix hp (List.prefix_append ops _) with hp | ⟨q, rfl⟩
        · exact ⟨pre, hp, k, h, hf, rfl⟩
        · have hq := (List.prefix_append_right_inj ops).1 hp
          refine ⟨ops, List.prefix_refl _, k, h, ?_, rfl⟩
          rw [List.foldl_append] at hf
          generalize ops.foldl cnext [] = l at hf ⊢
          have : q.foldl cnext l = l := by
            rcases q with _ | ⟨a, q⟩
            · rfl
            · rw [List.cons_prefix_cons] at hq
              obtain ⟨rfl, hq⟩ := hq
              rcases q with _ | ⟨b, q⟩
              · rfl
              · rw [List.cons_prefix_cons, List.prefix_nil] at hq
                obtain ⟨rfl, rfl⟩ := hq
                exact map_nil_call l name
          rw [this] at hf; exact hf
    exact ⟨Or.inl rfl, fun ha hb => hA.values (hsub _ ha) (hsub _ hb), fun ha => hA.no64 (hsub _ ha),
      fun ha hb => hA.digest (hsub _ ha) (hsub _ hb)⟩
  obtain ⟨w, h⟩ := C139_sessions hE _ hA' D hD top
  have hm := mapOf_spec ops name
  have hks := hist_keys ops hk name
  refine ⟨w, cexpect E [] ops, decide (ops.foldl cnext [] ≠ []), ?_, ?_⟩
  swap
  · intro hs
    rw [decide_eq_true_eq]
    intro he
    rw [he] at hm
    rw [← hm] at hs
    cases hs
  rw [h, cexpect_append]
  simp only [cexpect, canswer, cnext]
  generalize find (ops.foldl cnext []) name = f at hm hks
  cases f with
  | none => rw [← hm]; rfl
  | some h =>
    rw [← hm]
    simp only [Option.map_some, answerT, C01_get K hK h (hks h rfl) key hkey]

/-! ### An example, and `IsDirty` -/

/-- The trees of the named tries on the way. -/
def subTreeList (ops : List (COp V)) : List (Node V) :=
  (newTrie (V := V)).root :: (List.range (ops.length + 1)).flatMap fun n =>
    ((ops.take n).foldl cnext ([] : Hist V)).map fun p => (newTrie.run p.2).root

theorem subTrees_mem {ops : List (COp V)} {a : Node V} (h : subTrees ops a) : a ∈ subTreeList ops := by
  rcases h with rfl | ⟨pre, hp, k, h, hf, rfl⟩
  · exact List.mem_cons_self
  · refine List.mem_cons_of_mem _ (List.mem_flatMap.2 ⟨pre.length, ?_, ?_⟩)
    · have := hp.length_le
      rw [List.mem_range]; omega
    · rw [← List.prefix_iff_eq_take.1 hp]
      obtain ⟨p, hp, rfl⟩ := Option.map_eq_some_iff.1 hf
      exact List.mem_map_of_mem (List.mem_of_find?_eq_some hp)

theorem subTrees_apart {ops : List (COp V)}
    (h1 : ∀ x ∈ (subTreeList ops).flatMap valuesOf, ∀ y ∈ (subTreeList ops).flatMap valuesOf, E.vh x = E.vh y → x = y)
    (h2 : ∀ x ∈ (subTreeList ops).flatMap (inputs E.H E.R E.vh), ∀ y ∈ (subTreeList ops).flatMap (inputs E.H E.R E.vh),
      E.H x = E.H y → x = y)
    (h3 : ∀ a ∈ subTreeList ops, no64b E.R a = true) : Apart E (subTrees ops) := by
  refine ⟨Or.inl rfl, ?_, fun ha => no64_of (h3 _ (subTrees_mem ha)), ?_⟩
  · intro a b q r x y ha hb hx hy
    exact h1 x (List.mem_flatMap.2 ⟨a, subTrees_mem ha, mem_valuesOf hx⟩) y (List.mem_flatMap.2 ⟨b, subTrees_mem hb, mem_valuesOf hy⟩)
  · rintro a b ha hb ⟨x, hx, y, hy, hne, he⟩
    exact hne (h2 x (List.mem_flatMap.2 ⟨a, subTrees_mem ha, hx⟩) y (List.mem_flatMap.2 ⟨b, subTrees_mem hb, hy⟩) he)

/-- The keys backwards. -/
def backwards : Order := ⟨List.reverse, List.reverse_perm⟩

/-- Two sub-tries, one of them emptied later; the combined trie is opened again twice. -/
def demoComb : List (COp Bytes) :=
  [.attach [2], .call [2] (.put [0x12] [1]), .attach [1], .call [1] (.put [0x34] [2]), .reopen realLimits backwards,
    .call [2] (.get [0x12]), .call [1] (.put [0x35] [3]), .call [2] (.del [0x12]), .call [3] (.get [0x12]), .reopen realLimits backwards,
    .call [1] (.get [0x35]), .call [1] (.get [0x34]), .call [2] (.get [0x12]), .drop [2], .drop [2], .keys]

theorem demoComb_apart : Apart toyE (subTrees demoComb) :=
  subTrees_apart (by decide +kernel) (by decide +kernel) (by decide +kernel)

example : ∃ w, crun toyE (fresh freshDisk fun _ => none) demoComb = .ok (w, cexpect toyE [] demoComb) :=
  C139_sessions toyE_lawful demoComb demoComb_apart freshDisk freshDisk_ok _

example : cexpect toyE [] demoComb =
    [.flag true, .sub (.changed true), .flag true, .sub (.changed true), .flag true, .sub (.value (some [1])), .sub (.changed true),
      .sub (.deleted true (some [1])), .absent, .flag true, .sub (.value (some [3])), .sub (.value (some [2])), .sub (.value none),
      .flag true, .flag false, .keys [[1]]] := by decide +kernel

/-- What `IsDirty` is for: a combined trie that is not dirty can be opened at its hash. -/
def DirtyLaw (V : Type) : Prop := ∀ (E : Env V), E.Lawful → ∀ (ops : List (COp V)), Apart E (subTrees ops) → ∀ (D : Disk), D.ok →
  ∀ (w : World V) r, crun E (fresh D fun _ => none) ops = .ok (w, r) → w.c.keys ≠ [] → w.c.isDirty = false →
    ∀ root, w.c.hash E.H (subHash E) = .ok root →
      ((new (BTrie V)).initTrie E.R (fun h => openTrie (some h)) w.top (some root)).isSome = true

/-- Two committed sub-tries, of which one is deleted. -/
def dropped : List (COp Bytes) :=
  [.attach [1], .call [1] (.put [0x12] [1]), .attach [2], .call [2] (.put [0x34] [2]), .commit realLimits backwards, .drop [2]]

/-- C139 does not extend to `IsDirty`: after a sub-trie is deleted (or a clean one put) nothing is dirty, but the combined trie with its
new hash has not been stored; a caller that commits only what is dirty loses the change. -/
theorem C139_isDirty_refuted : ¬ DirtyLaw Bytes := by
  intro h
  have hx : (match crun toyE (fresh freshDisk fun _ => none) dropped with
      | .ok (w, _) => decide (w.c.keys ≠ [] ∧ w.c.isDirty = false) &&
          (match w.c.hash toyE.H (subHash toyE) with
            | .ok root => ((new (BTrie Bytes)).initTrie toyE.R (fun h => openTrie (some h)) w.top (some root)).isNone
            | _ => false)
      | _ => false) = true := by decide +kernel
  obtain ⟨w, hr⟩ := C139_sessions (E := toyE) toyE_lawful dropped
    (subTrees_apart (by decide +kernel) (by decide +kernel) (by decide +kernel)) freshDisk freshDisk_ok fun _ => none
  rw [hr] at hx
  simp only [Bool.and_eq_true, decide_eq_true_eq] at hx
  obtain ⟨⟨h1, h2⟩, h3⟩ := hx
  cases hh : w.c.hash toyE.H (subHash toyE) with
  | err => rw [hh] at h3; cases h3
  | panic => rw [hh] at h3; cases h3
  | ok root =>
    rw [hh] at h3
    have := h toyE toyE_lawful dropped (subTrees_apart (by decide +kernel) (by decide +kernel) (by decide +kernel)) freshDisk freshDisk_ok
      w _ hr h1 h2 root hh
    simp only at h3
    rw [Option.isNone_iff_eq_none.1 h3] at this
    cases this

/-! ### Failing writes -/

/-- Whether `Commit` of a trie reports success: only the write of its root counts. -/
def Reports (E : Env V) (F : Faults) (L : Limits) (t : BTrie V) (b : Bool) : Prop := ∃ D, (t.commit E F L D).2.2 = b

theorem commitLoop_reports (F : Faults) (L : Limits) : ∀ (ks : List Bytes) (c : Comb (BTrie V)) (D : Disk), ks.Nodup →
    ((commitLoop E F L ks c D).2.2 = true → ∀ k ∈ ks, ∀ t, c.vm k = some t → isDirty t = true → Reports E F L t true) ∧
    ((commitLoop E F L ks c D).2.2 = false → ∃ k ∈ ks, ∃ t, c.vm k = some t ∧ isDirty t = true ∧ Reports E F L t false)
  | [], c, D, _ => by simp [commitLoop]
  | k :: ks, c, D, hn => by
    have hk : k ∉ ks := (List.nodup_cons.1 hn).1
    have hks : ks.Nodup := (List.nodup_cons.1 hn).2
    rw [commitLoop]
    cases hv : c.vm k with
    | none =>
      obtain ⟨h1, h2⟩ := commitLoop_reports F L ks c D hks
      refine ⟨fun h x hx t ht hd => ?_, fun h => ?_⟩
      · rcases List.mem_cons.1 hx with rfl | hx
        · rw [hv] at ht; cases ht
        · exact h1 h x hx t ht hd
      · obtain ⟨x, hx, y⟩ := h2 h; exact ⟨x, List.mem_cons_of_mem _ hx, y⟩
    | some t0 =>
      simp only
      by_cases hd0 : isDirty t0 = true
      · rw [if_pos hd0]
        cases hr : (t0.commit E F L D).2.2 with
        | false =>
          rw [if_neg (by simp)]
          exact ⟨fun h => (by cases h), fun _ => ⟨k, List.mem_cons_self, t0, hv, hd0, D, hr⟩⟩
        | true =>
          rw [if_pos rfl]
          obtain ⟨h1, h2⟩ := commitLoop_reports F L ks (setAt c k (t0.commit E F L D).1) (t0.commit E F L D).2.1 hks
          have hvm : ∀ x ∈ ks, (setAt c k (t0.commit E F L D).1).vm x = c.vm x := by
            intro x hx
            have : x ≠ k := fun e => hk (e ▸ hx)
            simp [setAt, this]
          refine ⟨fun h x hx t ht hd => ?_, fun h => ?_⟩
          · rcases List.mem_cons.1 hx with rfl | hx
            · rw [hv] at ht; cases ht; exact ⟨D, hr⟩
            · exact h1 h x hx t (by rw [hvm x hx]; exact ht) hd
          · obtain ⟨x, hx, t, y, z⟩ := h2 h
            exact ⟨x, List.mem_cons_of_mem _ hx, t, by rw [← hvm x hx]; exact y, z⟩
      · rw [if_neg hd0]
        obtain ⟨h1, h2⟩ := commitLoop_reports F L ks c D hks
        refine ⟨fun h x hx t ht hd => ?_, fun h => ?_⟩
        · rcases List.mem_cons.1 hx with rfl | hx
          · rw [hv] at ht; cases ht; exact absurd hd hd0
          · exact h1 h x hx t ht hd
        · obtain ⟨x, hx, y⟩ := h2 h; exact ⟨x, List.mem_cons_of_mem _ hx, y⟩


theorem pairs_ok (vm : Bytes → Option (BTrie V)) : ∀ ks, ∃ l, pairs (subHash E) vm ks = .ok l
  | [] => ⟨_, rfl⟩
  | k :: ks => by
    obtain ⟨l, hl⟩ := pairs_ok vm ks
    rw [pairs]
    cases vm k with
    | none => exact ⟨l, hl⟩
    | some t => simp only [subHash]; rw [hl]; exact ⟨_, rfl⟩

theorem hashes_ok (vm : Bytes → Option (BTrie V)) : ∀ ks, ∃ l, hashes (subHash E) vm ks = .ok l
  | [] => ⟨_, rfl⟩
  | k :: ks => by
    obtain ⟨l, hl⟩ := hashes_ok vm ks
    rw [hashes]
    cases vm k with
    | none => exact ⟨l, hl⟩
    | some t => simp only [subHash]; rw [hl]; exact ⟨_, rfl⟩

theorem saveRoot_ok (c : Comb (BTrie V)) (top : Bytes → Option Bytes) : ∃ top', c.saveRoot E.H E.R (subHash E) top = .ok top' := by
  obtain ⟨l, hl⟩ := pairs_ok (E := E) c.vm c.keys
  obtain ⟨l', hl'⟩ := hashes_ok (E := E) c.vm c.keys
  simp only [Comb.saveRoot, hl, Comb.hash, hl']
  by_cases h : c.keys = []
  · rw [if_pos h]; exact ⟨_, rfl⟩
  · rw [if_neg h]; exact ⟨_, rfl⟩

/-- **C139** (what `Commit` reports). Whatever `Save` calls fail: if `Commit` returns nil, so did `Commit` of every dirty sub-trie; if it
returns an error, `Commit` of some dirty sub-trie did, and no root was written. A trie is opened again only
after a commit that returned nil. -/
theorem C139_reports (F : Faults) (L : Limits) (o : Order) {w w' : World V} (hw : Inv w.c) {b : Bool} :
    (w.commit E F L o.1 = .ok (w', true) → ∀ k t, w.c.vm k = some t → isDirty t = true → Reports E F L t true) ∧
    (w.commit E F L o.1 = .ok (w', false) → w'.top = w.top ∧
      ∃ k t, w.c.vm k = some t ∧ isDirty t = true ∧ Reports E F L t false) ∧
    (w.reopen E F L o.1 = .ok (w', b) → ∃ v b', w.commit E F L o.1 = .ok (v, b') ∧ (b = true → b' = true)) := by
  have hperm := o.2 w.c.keys
  have hnd : (o.1 w.c.keys).Nodup := hperm.nodup_iff.2 (hw.sorted.nodup bytesCompare_lawful)
  obtain ⟨h1, h2⟩ := commitLoop_reports (E := E) F L (o.1 w.c.keys) w.c w.D hnd
  refine ⟨?_, ?_, ?_⟩
  · intro h k t hk hd
    refine h1 ?_ k (hperm.mem_iff.2 ((hw.dom k).2 (by rw [hk]; rfl))) t hk hd
    cases hr : (commitLoop E F L (o.1 w.c.keys) w.c w.D).2.2 with
    | true => rfl
    | false => simp [World.commit, hr] at h
  · intro h
    cases hr : (commitLoop E F L (o.1 w.c.keys) w.c w.D).2.2 with
    | false =>
      simp [World.commit, hr] at h
      obtain ⟨k, -, t, x⟩ := h2 hr
      exact ⟨by rw [← h], k, t, x⟩
    | true =>
      simp only [World.commit, hr, Bool.not_true, Bool.false_eq_true, if_false] at h
      obtain ⟨top, hs⟩ := saveRoot_ok (E := E) (commitLoop E F L (o.1 w.c.keys) w.c w.D).1 w.top
      rw [hs] at h
      simp at h
  · intro h
    unfold World.reopen at h
    cases hc : w.commit E F L o.1 with
    | err => rw [hc] at h; cases h
    | panic => rw [hc] at h; cases h
    | ok p =>
      obtain ⟨v, b'⟩ := p
      refine ⟨v, b', rfl, fun hb => ?_⟩
      subst hb
      rw [hc] at h
      cases b' with
      | true => rfl
      | false => simp at h

/-- A storage of nodes that refuses every `Save`. -/
def noNodes : Faults := ⟨fun _ => true, fun _ => false⟩

/-- Two sub-tries, one with a value. -/
def demoHalf : World Bytes := ⟨⟨[[1], [2]], fun k => if k = [1] then some (openTrie none)
  else if k = [2] then some ((openTrie none : BTrie Bytes).put toyE freshDisk [0x12] [1]).1 else none⟩, freshDisk, fun _ => none⟩

/-- A commit fails whose `Save` fails, and with a storage that works it does not. -/
example : (match demoHalf.commit toyE noNodes realLimits id with | .ok (_, b) => b | _ => true) = false ∧
    (match demoHalf.commit toyE noFaults realLimits id with | .ok (_, b) => b | _ => false) = true ∧
    (match demoHalf.reopen toyE noNodes realLimits id with | .ok (_, b) => b | _ => true) = false := by decide +kernel

end Verif.Combined

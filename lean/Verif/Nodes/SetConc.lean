import Verif.Nodes.SetProps
import Verif.Conc.RW
import Verif.Conc.Mutex

/-!
# Property C151: one `NodeIDSet` used by several goroutines

`Put`, `Delete`, `Len`, `Less` and `GetIndex` hold the lock of the set; `Get` and `GetNodeIDs` do not, and `GetNodeIDs` sorts the set in
place.  First the calls under the lock, step by step: every schedule is explained by an order of whole calls, and without deletions the
set behaves as a list that only grows.  Then the calls without lock, which break under schedules shown here.

Left out: calls with a nil id (they return before the lock is asked for) and the words of a slice being read and written one by one, which
only makes the calls without lock worse.
-/

namespace Verif.Nodes
open Verif.Conc

/-! ### Calls under the lock -/

/-- The calls. -/
inductive SCall where
  | put (id : Bytes) | delete (id : Bytes) | len | less (i j : Nat) | index (id : Bytes)
deriving DecidableEq

/-- Their answers. -/
inductive SAns where
  | flag (b : Bool) | done | num (n : Nat) | index (i : Option Nat) | panicked
deriving DecidableEq

/-- /repo/basic.go:604-608 `Len`, 618-622 `Less`, 624-637 `Put`, 639-652 `Delete`, 661-669 `GetIndex`, each access of the memory a step. -/
def setBody : SCall → Prog NodeSet SAns
  | .put id => .step (fun s => s) fun s =>
    match s.m id with
    | some _ => .ret (.flag false)
    | none => .step (fun s => { s with m := mapSet s.m id s.l.length }) fun _ =>
      .step (fun s => { s with l := s.l ++ [id] }) fun _ => .ret (.flag true)
  | .delete id => .step (fun s => s) fun s =>
    match s.m id with
    | none => .ret .done
    | some i => .step (fun s => s) fun s =>
      if i + 1 > s.l.length then .ret .panicked
      else .step (fun s => { s with l := goCopyAt s.l i (s.l.drop (i + 1)) }) fun _ =>
        .step (fun s => { s with l := s.l.take (s.l.length - 1) }) fun _ =>
          .step (fun s => { s with m := mapDel s.m id }) fun _ => .ret .done
  | .len => .step (fun s => s) fun s => .ret (.num s.l.length)
  | .less i j => .step (fun s => s) fun s =>
    match s.l[i]? with
    | none => .ret .panicked
    | some a => .step (fun s => s) fun s =>
      match s.l[j]? with
      | none => .ret .panicked
      | some b => .ret (.flag (decide (bytesCompare a b < 0)))
  | .index id => .step (fun s => s) fun s => .ret (.index (s.getIndex id))

/-- `Put` and `Delete` lock for writing, the others for reading. -/
def setWrites : SCall → Bool
  | .put _ => true
  | .delete _ => true
  | _ => false

/-- The same calls made by a single goroutine (C63). -/
def setCall (s : NodeSet) : SCall → NodeSet × SAns
  | .put id => ((s.put id).1, .flag (s.put id).2)
  | .delete id =>
    match s.delete id with
    | .ok t => (t, .done)
    | _ => (s, .panicked)
  | .len => (s, .num s.l.length)
  | .less i j =>
    match s.l[i]?, s.l[j]? with
    | some a, some b => (s, .flag (decide (bytesCompare a b < 0)))
    | _, _ => (s, .panicked)
  | .index id => (s, .index (s.getIndex id))

/-- A list of ids, each once: the specification of a set from which nothing is deleted. -/
def listCall (l : List Bytes) : SCall → List Bytes × SAns
  | .put id => if id ∈ l then (l, .flag false) else (l ++ [id], .flag true)
  | .delete _ => (l, .done)
  | .len => (l, .num l.length)
  | .less i j =>
    match l[i]?, l[j]? with
    | some a, some b => (l, .flag (decide (bytesCompare a b < 0)))
    | _, _ => (l, .panicked)
  | .index id => (l, .index (l.findIdx? (· == id)))

/-- Call by call. -/
def setServes (o : SCall) (s s' : NodeSet) (r : SAns) : Prop := setCall s o = (s', r)

/-- Call by call. -/
def listServes (o : SCall) (l l' : List Bytes) (r : SAns) : Prop := listCall l o = (l', r)

theorem goCopyAt_length (l : List Bytes) (i : Nat) (src : List Bytes) (h : i + src.length ≤ l.length) : (goCopyAt l i src).length = l.length := by
  unfold goCopyAt goCopy
  simp
  omega

theorem set_correct : Correct (S := NodeSet) (A := NodeSet) id (fun _ => True) Eq setServes setBody setWrites where
  refl _ := rfl
  trans _ _ _ h1 h2 := h1.trans h2
  harmless s s' _ h := ⟨trivial, congrArg id h.symm⟩
  reader := by
    intro o ho a
    cases o with
    | put => cases ho
    | delete => cases ho
    | len =>
      simp only [setBody, Reads]
      rintro s - rfl
      exact ⟨trivial, rfl, rfl⟩
    | index id =>
      simp only [setBody, Reads]
      rintro s - rfl
      exact ⟨trivial, rfl, rfl⟩
    | less i j =>
      simp only [setBody, Reads]
      rintro s - rfl
      refine ⟨trivial, rfl, ?_⟩
      cases h1 : s.l[i]? with
      | none => simp only [Reads, setServes, setCall, h1, id]
      | some x =>
        simp only [Reads]
        rintro s' - rfl
        refine ⟨trivial, rfl, ?_⟩
        simp only [id] at h1
        cases h2 : s'.l[j]? with
        | none => simp only [Reads, setServes, setCall, h1, h2, id]
        | some y => simp only [Reads, setServes, setCall, h1, h2, id]
  writer := by
    intro o ho s _
    cases o with
    | len => cases ho
    | index => cases ho
    | less => cases ho
    | put id =>
      simp only [setBody, Writes]
      rintro s rfl
      cases h1 : s.m id with
      | some i => simp [Writes, setServes, setCall, NodeSet.put, h1]
      | none =>
        simp only [Writes]
        rintro s' rfl s' rfl
        simp [setServes, setCall, NodeSet.put, h1]
    | delete id =>
      simp only [setBody, Writes]
      rintro s rfl
      cases h1 : s.m id with
      | none => simp [Writes, setServes, setCall, NodeSet.delete, h1]
      | some i =>
        simp only [Writes]
        rintro s' rfl
        by_cases h2 : i + 1 > s.l.length
        · simp [Writes, setServes, setCall, NodeSet.delete, h1, h2]
        · have h3 : (goCopyAt s.l i (s.l.drop (i + 1))).length = s.l.length :=
            goCopyAt_length _ _ _ (by simp; omega)
          rw [if_neg h2]
          simp only [Writes]
          rintro s' rfl s' rfl s' rfl
          simp [setServes, setCall, NodeSet.delete, h1, h2, h3]

/-- **C151, calls under the lock:** whatever the goroutines do, the calls that have returned, in the order in which they returned, are
answered as if they had been made one after another by a single goroutine; each goroutine's calls are among them in its order; and
between the calls the set is what those calls leave. -/
theorem C151_linearizable (s0 : NodeSet) (todo : Nat → List SCall) (c : RW NodeSet SCall SAns)
    (h : RWSteps setBody setWrites Eq (rwInitial SCall SAns s0 todo) c) :
    (∃ s, Explains setServes s0 c.log s ∧ (c.writer = none → c.shared = s)) ∧ ∀ t, callsOf t c.log <+: todo t := by
  obtain ⟨⟨s, hs, hf, -⟩, ho⟩ := rw_linearizable set_correct s0 trivial todo h
  exact ⟨⟨s, hs, fun hw => (hf hw).2.1⟩, fun t => ⟨_, by rw [ho t, List.append_assoc]⟩⟩

/-- **C151:** as long as some goroutine has calls to finish, some goroutine can go on. -/
theorem C151_progress (s0 : NodeSet) (todo : Nat → List SCall) (c : RW NodeSet SCall SAns)
    (h : RWSteps setBody setWrites Eq (rwInitial SCall SAns s0 todo) c) (t : Nat) (ht : callsOf t c.log ≠ todo t) :
    ∃ c', RWStep setBody setWrites (fun _ _ => False) c c' :=
  rw_progress set_correct s0 trivial todo h t ht

/-! ### Without deletions -/

theorem getIndex_eq {s : NodeSet} (h : Consistent s) (id : Bytes) : s.m id = s.l.findIdx? (· == id) := by
  cases hm : s.m id with
  | some i =>
    have h1 := (h id i).mp hm
    obtain ⟨h2, h3⟩ := List.getElem?_eq_some_iff.mp h1
    symm
    rw [List.findIdx?_eq_some_iff_getElem]
    refine ⟨h2, by simp [h3], ?_⟩
    intro j hj
    simp only [beq_iff_eq]
    intro e
    have : s.m id = some j := (h id j).mpr (List.getElem?_eq_some_iff.mpr ⟨by omega, e⟩)
    rw [hm] at this
    simp only [Option.some.injEq] at this
    omega
  | none =>
    symm
    rw [List.findIdx?_eq_none_iff]
    intro x hx
    simp only [beq_eq_false_iff_ne, ne_eq]
    rintro rfl
    have := (h.mem_iff x).mp hx
    rw [hm] at this
    cases this

theorem explains_list {s0 s : NodeSet} {log : List (Nat × SCall × SAns)} (h : Explains setServes s0 log s) (h0 : Consistent s0)
    (hd : ∀ e ∈ log, ∀ id, e.2.1 ≠ .delete id) : Explains listServes s0.l log s.l ∧ Consistent s := by
  induction h with
  | nil => exact ⟨.nil _, h0⟩
  | @snoc log s s' t o r _ hs ih =>
    obtain ⟨h1, h2⟩ := ih fun e he => hd e (List.mem_append_left _ he)
    have hd' := hd (t, o, r) (by simp)
    suffices h : listServes o s.l s'.l r ∧ Consistent s' from ⟨.snoc t o r h1 h.1, h.2⟩
    simp only [setServes] at hs
    cases o with
    | delete id => exact absurd rfl (hd' id)
    | len =>
      simp only [setCall, Prod.mk.injEq] at hs
      obtain ⟨rfl, rfl⟩ := hs
      exact ⟨rfl, h2⟩
    | index id =>
      simp only [setCall, Prod.mk.injEq] at hs
      obtain ⟨rfl, rfl⟩ := hs
      exact ⟨by simp only [listServes, listCall, NodeSet.getIndex, getIndex_eq h2], h2⟩
    | less i j =>
      simp only [setCall] at hs
      simp only [listServes, listCall]
      cases e1 : s.l[i]? <;> cases e2 : s.l[j]? <;> simp only [e1, e2, Prod.mk.injEq] at hs ⊢ <;> obtain ⟨rfl, rfl⟩ := hs <;>
        exact ⟨⟨rfl, rfl⟩, h2⟩
    | put id =>
      simp only [setCall, Prod.mk.injEq] at hs
      obtain ⟨rfl, rfl⟩ := hs
      simp only [listServes, listCall, NodeSet.put]
      cases hm : s.m id with
      | some i =>
        have : id ∈ s.l := (h2.mem_iff id).mpr (by rw [hm]; rfl)
        simp only [this, if_true]
        exact ⟨trivial, h2⟩
      | none =>
        have : id ∉ s.l := fun hx => by have := (h2.mem_iff id).mp hx; rw [hm] at this; cases this
        simp only [this, if_false]
        exact ⟨trivial, consistent_append h2 id hm⟩

/-- The calls in the order are among those to make. -/
theorem mem_callsOf {log : List (Nat × SCall × SAns)} {e : Nat × SCall × SAns} (h : e ∈ log) : e.2.1 ∈ callsOf e.1 log := by
  simp only [callsOf, List.mem_map, List.mem_filter]
  exact ⟨e, ⟨h, by simp⟩, rfl⟩

/-- **C151:** if nobody deletes, the goroutines see one list of distinct ids to which ids are added at the end. -/
theorem C151_grows (s0 : NodeSet) (h0 : Consistent s0) (todo : Nat → List SCall) (hd : ∀ t id, SCall.delete id ∉ todo t) (c : RW NodeSet SCall SAns)
    (h : RWSteps setBody setWrites Eq (rwInitial SCall SAns s0 todo) c) :
    ∃ l, Explains listServes s0.l c.log l ∧ l.Nodup ∧ (c.writer = none → c.shared.l = l) := by
  obtain ⟨⟨s, hs, hw⟩, ho⟩ := C151_linearizable s0 todo c h
  obtain ⟨h1, h2⟩ := explains_list hs h0 fun e he id e' => by
    have := (ho e.1).subset (mem_callsOf he)
    rw [e'] at this
    exact hd e.1 id this
  exact ⟨s.l, h1, h2.nodup, fun h => by rw [hw h]⟩

theorem list_prefix {l0 l : List Bytes} {log : List (Nat × SCall × SAns)} (h : Explains listServes l0 log l) : l0 <+: l := by
  induction h with
  | nil => exact List.prefix_refl _
  | snoc t o r _ hs ih =>
    refine ih.trans ?_
    simp only [listServes] at hs
    cases o with
    | put id =>
      simp only [listCall] at hs
      split at hs <;> simp only [Prod.mk.injEq] at hs <;> obtain ⟨rfl, rfl⟩ := hs
      · exact List.prefix_refl _
      · exact List.prefix_append _ _
    | less i j =>
      simp only [listCall] at hs
      split at hs <;> simp only [Prod.mk.injEq] at hs <;> obtain ⟨rfl, rfl⟩ := hs <;> exact List.prefix_refl _
    | delete id => simp only [listCall, Prod.mk.injEq] at hs; obtain ⟨rfl, rfl⟩ := hs; exact List.prefix_refl _
    | len => simp only [listCall, Prod.mk.injEq] at hs; obtain ⟨rfl, rfl⟩ := hs; exact List.prefix_refl _
    | index => simp only [listCall, Prod.mk.injEq] at hs; obtain ⟨rfl, rfl⟩ := hs; exact List.prefix_refl _

/-- What is in the order about an id says where the id is in the end. -/
theorem list_index {l0 l : List Bytes} {log : List (Nat × SCall × SAns)} (h : Explains listServes l0 log l) (id : Bytes) (i t : Nat)
    (hm : (t, SCall.index id, SAns.index (some i)) ∈ log) : l.findIdx? (· == id) = some i := by
  induction h with
  | nil => cases hm
  | @snoc log l l' t' o r hl hs ih =>
    have hp : l <+: l' := list_prefix (.snoc t' o r (.nil l) hs)
    have keep : l.findIdx? (· == id) = some i → l'.findIdx? (· == id) = some i := by
      obtain ⟨x, rfl⟩ := hp
      intro h
      rw [List.findIdx?_append, h]
      rfl
    rcases List.mem_append.mp hm with hm | hm
    · exact keep (ih hm)
    · rw [List.mem_singleton] at hm
      injection hm with e1 e2
      injection e2 with e2 e3
      subst e1 e2 e3
      simp only [listServes, listCall, Prod.mk.injEq, SAns.index.injEq] at hs
      exact keep hs.2

theorem list_put_once {l0 l : List Bytes} {log : List (Nat × SCall × SAns)} (h : Explains listServes l0 log l) (id : Bytes) :
    (log.filter fun e => decide (e.2 = (.put id, .flag true))).length ≤ 1 ∧
      (id ∉ l → (log.filter fun e => decide (e.2 = (.put id, .flag true))) = []) := by
  induction h with
  | nil => exact ⟨Nat.zero_le _, fun _ => rfl⟩
  | @snoc log l l' t o r hl hs ih =>
    have hp : l <+: l' := list_prefix (.snoc t o r (.nil l) hs)
    rw [List.filter_append]
    by_cases e : (o, r) = (.put id, .flag true)
    · obtain ⟨rfl, rfl⟩ := Prod.mk.inj e
      simp only [listServes, listCall] at hs
      by_cases hx : id ∈ l
      · simp [hx] at hs
      · simp only [hx, if_false, Prod.mk.injEq] at hs
        obtain ⟨rfl, -⟩ := hs
        refine ⟨by rw [ih.2 hx]; simp, fun hn => absurd (by simp) hn⟩
    · have h1 : ([(t, o, r)].filter fun e : Nat × SCall × SAns => decide (e.2 = (.put id, .flag true))) = [] := by
        refine List.filter_eq_nil_iff.mpr ?_
        intro x hx
        rw [List.mem_singleton] at hx
        subst hx
        simpa using e
      rw [h1, List.append_nil]
      exact ⟨ih.1, fun hn => ih.2 fun hx => hn (hp.subset hx)⟩

/-- **C151:** if nobody deletes, of all the `Put`s of an id by all goroutines at most one is told that it has added the id. -/
theorem C151_once (s0 : NodeSet) (h0 : Consistent s0) (todo : Nat → List SCall) (hd : ∀ t id, SCall.delete id ∉ todo t) (c : RW NodeSet SCall SAns)
    (h : RWSteps setBody setWrites Eq (rwInitial SCall SAns s0 todo) c) (id : Bytes) :
    (c.log.filter fun e => decide (e.2 = (.put id, .flag true))).length ≤ 1 := by
  obtain ⟨l, h1, -⟩ := C151_grows s0 h0 todo hd c h
  exact (list_put_once h1 id).1

/-- **C151:** if nobody deletes, goroutines that find an id find it at the same index, and different ids at different ones. -/
theorem C151_agree (s0 : NodeSet) (h0 : Consistent s0) (todo : Nat → List SCall) (hd : ∀ t id, SCall.delete id ∉ todo t) (c : RW NodeSet SCall SAns)
    (h : RWSteps setBody setWrites Eq (rwInitial SCall SAns s0 todo) c) (id id' : Bytes) (i i' t u : Nat)
    (h1 : (t, SCall.index id, SAns.index (some i)) ∈ c.log) (h2 : (u, SCall.index id', SAns.index (some i')) ∈ c.log) : id = id' ↔ i = i' := by
  obtain ⟨l, h3, -⟩ := C151_grows s0 h0 todo hd c h
  have e1 := list_index h3 id i t h1
  have e2 := list_index h3 id' i' u h2
  constructor
  · rintro rfl
    rw [e1] at e2
    exact Option.some.inj e2
  · rintro rfl
    obtain ⟨a, b, -⟩ := List.findIdx?_eq_some_iff_getElem.mp e1
    obtain ⟨a', b', -⟩ := List.findIdx?_eq_some_iff_getElem.mp e2
    simp only [beq_iff_eq] at b b'
    exact b.symm.trans b'

/-- Two goroutines put the same id; one of them asks for its index while the other one is about to put it. -/
example : ∃ c, RWSteps setBody setWrites Eq (rwInitial SCall SAns NodeSet.empty fun t =>
      if t = 0 then [.put [7], .put [5]] else if t = 1 then [.put [5], .index [5], .len] else []) c ∧
    c.log = [(0, .put [7], .flag true), (1, .put [5], .flag true), (1, .index [5], .index (some 1)), (0, .put [5], .flag false), (1, .len, .num 2)] :=
  ⟨_, .trans (rw_solo _ _ _ 0 _ _ rfl) (.trans (rw_solo _ _ _ 1 _ _ rfl) (.trans (rw_solo _ _ _ 1 _ _ rfl) (.trans (rw_solo _ _ _ 0 _ _ rfl)
    (rw_solo _ _ _ 1 _ _ rfl)))), rfl⟩

/-! ### Calls without lock -/

/-- The calls. -/
inductive LCall where
  | delete (id : Bytes) | get (i : Nat) | nodeIDs
deriving DecidableEq

/-- Their answers. -/
inductive LAns where
  | done | id (x : Option Bytes) | ids (l : List Bytes) | panicked
deriving DecidableEq

/-- `sort.Sort` of a few elements, the inner loop: `for j := i; j > 0 && Less(j, j-1); j-- { Swap(j, j-1) }`. `Less` and `Swap` hold
the lock, one call at a time: /repo/basic.go:610-622. -/
def sink (rest : Code NodeSet LAns) : Nat → Code NodeSet LAns
  | 0 => rest
  | j + 1 => .act id fun s =>
    if bytesCompare (s.l.getD (j + 1) []) (s.l.getD j []) < 0 then .act (fun s => s.swap (j + 1) j) fun _ => sink rest j
    else rest

/-- The outer loop, `for i := 1; i < n; i++`. -/
def sinkAll (rest : Code NodeSet LAns) : List Nat → Code NodeSet LAns
  | [] => rest
  | i :: is => sink (sinkAll rest is) i

/-- /repo/basic.go:675-677: the ids are collected; no lock is held. The first argument bounds the turns of the loop. -/
def collect (nids : List Bytes) : Nat → Nat → Code NodeSet LAns
  | 0, _ => .ret (.ids nids)
  | n + 1, i => .act id fun s =>
    if i < s.l.length then .act id fun s =>
      match s.l[i]? with
      | none => .ret .panicked
      | some x => collect (nids ++ [x]) n (i + 1)
    else .ret (.ids nids)

/-- /repo/basic.go:639-652 `Delete`, in one step as it holds the lock; 654-659 `Get`; 671-682 `GetNodeIDs`, with the sorting of at
most twelve elements; a thousand turns of the loop. -/
def looseCode : LCall → Code NodeSet LAns
  | .delete id => .act (fun s => (setCall s (.delete id)).1) fun s => .ret (if (setCall s (.delete id)).2 = .panicked then .panicked else .done)
  | .get i => .act id fun s =>
    if i < s.l.length then .act id fun s =>
      match s.l[i]? with
      | none => .ret .panicked
      | some x => .ret (.id (some x))
    else .ret (.id none)
  | .nodeIDs => .act id fun s =>
    if s.l.length > 0 then .act id fun s => .act id fun s' =>
      sinkAll (collect (List.replicate s.l.length (List.replicate 64 0)) 1000 0) ((List.range s'.l.length).drop 1)
    else .ret (.ids [])

/-- The set of two ids in order. -/
def pair : NodeSet := ((NodeSet.empty.put [1]).1.put [2]).1

/-- The set of two ids out of order. -/
def pairBack : NodeSet := ((NodeSet.empty.put [2]).1.put [1]).1

theorem pair_consistent : Consistent pair :=
  (C63_put _ (C63_put _ consistent_empty [1]).1 [2]).1

theorem pairBack_consistent : Consistent pairBack :=
  (C63_put _ (C63_put _ consistent_empty [2]).1 [1]).1

/-- **C151 refuted for `Get`:** it panics if an id is deleted after it has looked at the length, which no order of whole calls explains. -/
theorem C151_get_refuted : ∃ (todo : Nat → List LCall) (c : Sys NodeSet LCall LAns), Consistent pair ∧
    SSteps looseCode (sInitial LCall LAns pair todo) c ∧ c.done 0 = [(.get 1, .panicked)] ∧ c.done 1 = [(.delete [2], .done)] ∧ c.shared.l = [[1]] := by
  refine ⟨fun t => if t = 0 then [.get 1] else if t = 1 then [.delete [2]] else [], _, pair_consistent,
    .tail (.tail (.tail (.tail (.tail (.tail (.tail (.refl _)
    (.call 0 (.get 1) [] rfl rfl))
    (.act 0 (.get 1) _ _ rfl))
    (.call 1 (.delete [2]) [] rfl rfl))
    (.act 1 (.delete [2]) _ _ rfl))
    (.ret 1 (.delete [2]) .done rfl))
    (.act 0 (.get 1) _ _ rfl))
    (.ret 0 (.get 1) .panicked rfl), rfl, rfl, rfl⟩

/-- **C151 refuted for `GetNodeIDs`:** if two goroutines ask for the ids, one can be given an id twice and another one not at all, and the
set can be left out of order. -/
theorem C151_nodeIDs_refuted : ∃ (todo : Nat → List LCall) (c : Sys NodeSet LCall LAns), Consistent pairBack ∧
    SSteps looseCode (sInitial LCall LAns pairBack todo) c ∧
    c.done 0 = [(.nodeIDs, .ids [List.replicate 64 0, List.replicate 64 0, [1], [1]])] ∧
    c.done 1 = [(.nodeIDs, .ids [List.replicate 64 0, List.replicate 64 0, [2], [1]])] ∧ c.shared.l = [[2], [1]] := by
  refine ⟨fun t => if t = 0 then [.nodeIDs] else if t = 1 then [.nodeIDs] else [], _, pairBack_consistent,
    .tail (.tail (.tail (.tail (.tail (.tail (.tail (.tail (.tail (.tail (.tail (.tail (.tail (.tail (.tail (.tail (.tail (.tail (.tail (.tail (.tail (.tail (.tail
    (.tail (.refl _)
    (.call 0 .nodeIDs [] rfl rfl))
    (.act 0 .nodeIDs _ _ rfl))
    (.act 0 .nodeIDs _ _ rfl))
    (.act 0 .nodeIDs _ _ rfl))
    (.act 0 .nodeIDs _ _ rfl)) -- Less
    (.call 1 .nodeIDs [] rfl rfl))
    (.act 1 .nodeIDs _ _ rfl))
    (.act 1 .nodeIDs _ _ rfl))
    (.act 1 .nodeIDs _ _ rfl))
    (.act 1 .nodeIDs _ _ rfl)) -- Less
    (.act 0 .nodeIDs _ _ rfl)) -- Swap: [1], [2]
    (.act 0 .nodeIDs _ _ rfl))
    (.act 0 .nodeIDs _ _ rfl)) -- [1] is collected
    (.act 1 .nodeIDs _ _ rfl)) -- Swap: [2], [1]
    (.act 0 .nodeIDs _ _ rfl))
    (.act 0 .nodeIDs _ _ rfl)) -- [1] again
    (.act 0 .nodeIDs _ _ rfl))
    (.ret 0 .nodeIDs (.ids [List.replicate 64 0, List.replicate 64 0, [1], [1]]) rfl))
    (.act 1 .nodeIDs _ _ rfl))
    (.act 1 .nodeIDs _ _ rfl))
    (.act 1 .nodeIDs _ _ rfl))
    (.act 1 .nodeIDs _ _ rfl))
    (.act 1 .nodeIDs _ _ rfl))
    (.ret 1 .nodeIDs (.ids [List.replicate 64 0, List.replicate 64 0, [2], [1]]) rfl), rfl, rfl, rfl⟩

end Verif.Nodes

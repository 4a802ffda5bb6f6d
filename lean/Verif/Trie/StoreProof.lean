import Verif.Trie.StoreProps
import Verif.Trie.RevertProps

/-!
# Property C140: proofs made by tries with storage (/repo/trie/trie.go:821-904)

`GetProof` and `GetExistenceProof` first look up the key, expanding nodes on the way and remembering them in a trace, and then go
through the trace from below.  Simplifications as in `Trie/Store.lean`; the calls do not fail in the codec.
-/

namespace Verif.Trie.StoreProof
open Verif Verif.Merkle Verif.Trie Verif.Trie.Store

variable {V : Type}

/-! ### Model -/

/-- `get` with a trace (`/repo/trie/trie.go:264-322`): the node afterwards, the value, and the indices of the children that were
appended to the trace.  A child is appended once it is expanded.  The first argument bounds the depth. -/
def traceF (E : Env V) (D : Disk) (g : UInt64) : Nat → BNode V → List Nib → BNode V × Option V × List Nib
  | 0, n, _ => (n, none, [])
  | f + 1, n, q =>
    match fullExpand E D g n with
    | (.nil, _) => (.nil, none, [])
    | (.mk i c, false) => (.mk i c, none, [])
    | (.mk i c, true) =>
      if q = [] then (.mk i c, i.value, [])
      else if isEmptyB E i c then (.mk i c, none, [])
      else if i.pre.drop (matchPrefix i.pre q) = [] then
        match q.drop (matchPrefix i.pre q) with
        | [] => (.mk i c, i.value, [])
        | k :: q' =>
          match c k with
          | .nil => (.mk i c, none, [])
          | .mk i1 c1 =>
            let e := if isCollapsed E i1 c1 then expandNode E D g i1 c1 else (.mk i1 c1, true)
            if e.2 = false then (.mk i (setKid c k e.1), none, [])
            else
              let r := traceF E D g f e.1 q'
              (.mk i (setKid c k r.1), r.2.1, k :: r.2.2)
      else (.mk i c, none, [])

/-- The position of the child to prove among the children that exist (`/repo/trie/node.go:871-883`). -/
def proofNumB (c : Nib → BNode V) (ptype : UInt8) : Int :=
  match (kidIds c).findIdx? (fun j => j.val = ptype.toNat) with
  | some k => (k : Int)
  | none => -1

/-- One turn of the loops (`/repo/trie/trie.go:836-850, 872-893`): the node is expanded if it is collapsed, and `computeHash` fills
caches and makes the proof (`/repo/trie/node.go:842-904`); `none` is an error. -/
def proveNode (E : Env V) (D : Disk) (g : UInt64) (ptype : UInt8) : BNode V → BNode V × Option NodeProof
  | .nil => (.nil, none)
  | .mk i c =>
    match (if isCollapsed E i c then expandNode E D g i c else (.mk i c, true)) with
    | (.mk i c, true) =>
      (.mk (valueHashed E i) (fun j => Store.hashed E (c j)),
        some (makeProof E.H (headerB i c) (hashedValue E i) ((kidIds c).map fun j => hashOf E (c j)) ptype (proofNumB c ptype)))
    | (n, _) => (n, none)

/-- The loops over the trace, from below; the last node of the trace gets the proof type `last`. -/
def proveAlong (E : Env V) (D : Disk) (g : UInt64) (last : UInt8) : List Nib → BNode V → BNode V × Option (List NodeProof)
  | [], n => let r := proveNode E D g last n; (r.1, r.2.map fun x => [x])
  | _ :: _, .nil => (.nil, none)
  | k :: ks, .mk i c =>
    let r := proveAlong E D g last ks (c k)
    match r.2 with
    | none => (.mk i (setKid c k r.1), none)
    | some ps =>
      let s := proveNode E D g (nibByte k) (.mk i (setKid c k r.1))
      (s.1, s.2.map fun x => ps ++ [x])

/-- `GetProof` (`/repo/trie/trie.go:821-860`); `none` is `ok == false`. -/
def getProof (E : Env V) (D : Disk) (t : BTrie V) (key : Bytes) : BTrie V × Option (V × List NodeProof) :=
  let r := traceF E D t.gen ((keyToPrefix key).length + 1) t.root (keyToPrefix key)
  match r.2.1 with
  | none => ({ t with root := r.1 }, none)
  | some x =>
    let s := proveAlong E D t.gen proofValue r.2.2 r.1
    ({ t with root := s.1 }, s.2.map fun ps => (x, ps))

/-- `GetExistenceProof` (`/repo/trie/trie.go:862-904`); `none` is an error. -/
def getExistence (E : Env V) (D : Disk) (t : BTrie V) (key : Bytes) : BTrie V × Option (Bool × List NodeProof) :=
  let r := traceF E D t.gen ((keyToPrefix key).length + 1) t.root (keyToPrefix key)
  let s := proveAlong E D t.gen proofExistence r.2.2 r.1
  ({ t with root := s.1 }, s.2.map fun ps => (r.2.1.isSome, ps))

/-! ### The trace -/

variable {E : Env V} {D : Disk}

/-- Expanding a node, if it is collapsed, leaves one that is not. -/
theorem expandNode_spec (hE : E.Lawful) (g : UInt64) {i : Info V} {d : Nib → BNode V} {p : List Nib} {v : Option V} {c : Nib → Node V}
    (h : Rep E D (.mk i d) (.mk p v c)) (hw : WFRoot (.mk p v c)) :
    ∃ i' d', (if isCollapsed E i d then expandNode E D g i d else (.mk i d, true)) = (.mk i' d', true) ∧
      InfoOK E D i' p v c ∧ ∀ j, Rep E D (d' j) (c j) := by
  by_cases hc : isCollapsed E i d = true
  · obtain ⟨i', d', he, hf⟩ := expand_spec hE g h hw
    rw [fullExpand, if_pos hc] at he
    rw [if_pos hc]
    exact ⟨i', d', he, hf.ok, hf.kids⟩
  · rw [if_neg hc]
    obtain ⟨p', v', c', e, h⟩ := h
    cases e
    rcases h with h | h
    · exact absurd (hashOnly_collapsed hE h) hc
    · exact ⟨i, d, rfl, h.1, h.2⟩

/-- The nodes along a trace are expanded, with their values. -/
def Open (E : Env V) (D : Disk) : List Nib → BNode V → Node V → Prop
  | _, .nil, _ => False
  | _, _, .nil => False
  | [], .mk i d, .mk p v c => Full E D i d p v c
  | k :: ks, .mk i d, .mk p v c => Full E D i d p v c ∧ Open E D ks (d k) (c k)

/-- The trace of a lookup in the tree. -/
def trace : Node V → List Nib → List Nib
  | .nil, _ => []
  | .mk p v c, q =>
    if q = [] then []
    else if isEmpty p v c then []
    else if p.drop (matchPrefix p q) = [] then
      match q.drop (matchPrefix p q) with
      | [] => []
      | i :: q' => if (c i).isSome then i :: trace (c i) q' else []
    else []

theorem Open.full {ks : List Nib} {b : BNode V} {p : List Nib} {v : Option V} {c : Nib → Node V} (h : Open E D ks b (.mk p v c)) :
    ∃ i d, b = .mk i d ∧ Full E D i d p v c := by
  cases b with
  | nil => cases ks <;> exact h.elim
  | mk i d =>
    cases ks with
    | nil => exact ⟨i, d, rfl, h⟩
    | cons k ks => exact ⟨i, d, rfl, h.1⟩

theorem traceF_spec (hE : E.Lawful) (g : UInt64) : ∀ (f : Nat) {b : BNode V} {a : Node V} (q : List Nib), q.length < f →
    Rep E D b a → WFRoot a → (traceF E D g f b q).2.1 = get a q ∧ (traceF E D g f b q).2.2 = trace a q ∧
      Open E D (trace a q) (traceF E D g f b q).1 a := by
  intro f
  induction f with
  | zero => intro b a q h; omega
  | succ f ih =>
    intro b a q hq hr hw
    cases a with
    | nil => exact hw.elim
    | mk p v c =>
      obtain ⟨i, d, he, hf⟩ := expand_spec hE g hr hw
      rw [traceF, he, get, trace]
      simp only
      by_cases hq0 : q = []
      · simp only [hq0, if_true]
        exact ⟨hf.value, by trivial, hf⟩
      · simp only [hq0, if_false, hf.isEmpty hE]
        by_cases hem : Trie.isEmpty p v c = true
        · simp only [hem, if_true]
          exact ⟨by trivial, by trivial, hf⟩
        · simp only [hem, if_false, Bool.false_eq_true, hf.ok.pre]
          by_cases hm : p.drop (matchPrefix p q) = []
          · simp only [hm, if_true]
            cases hd : q.drop (matchPrefix p q) with
            | nil => exact ⟨hf.value, by trivial, hf⟩
            | cons k q' =>
              have hl : q'.length < f := by
                have := congrArg List.length hd
                simp at this
                omega
              simp only
              have hk := hf.kids k
              cases hdk : d k with
              | nil =>
                rw [hdk] at hk
                have hck : c k = .nil := hk
                simp only
                rw [hck]
                exact ⟨by trivial, by simp [Node.isSome], by simpa [Node.isSome, Open] using hf⟩
              | mk i1 c1 =>
                rw [hdk] at hk
                obtain ⟨p1, v1, c2, e, hh⟩ := hk
                have hk : Rep E D (.mk i1 c1) (c k) := ⟨p1, v1, c2, e, hh⟩
                have hs : (c k).isSome = true := by rw [e]; rfl
                have hwk : WFRoot (c k) := WF.root (WFRoot.child hw k) hs
                simp only
                rw [if_pos hs]
                have hx : ∃ n, (if isCollapsed E i1 c1 then expandNode E D g i1 c1 else (.mk i1 c1, true)) = (n, true) ∧ Rep E D n (c k) := by
                  rw [e] at hk hwk ⊢
                  obtain ⟨i', d', e1, e2, e3⟩ := expandNode_spec hE g hk hwk
                  exact ⟨_, e1, p1, v1, c2, rfl, Or.inr ⟨e2, e3⟩⟩
                obtain ⟨n, e1, e2⟩ := hx
                rw [e1]
                simp only [Bool.true_eq_false, if_false]
                obtain ⟨h1, h2, h3⟩ := ih q' hl e2 hwk
                refine ⟨h1, by rw [h2], ?_⟩
                have : Rep E D (traceF E D g f n q').1 (c k) := by
                  rw [e] at h3 ⊢
                  obtain ⟨i', d', e', hf'⟩ := h3.full
                  rw [e']; exact hf'.rep
                refine ⟨hf.kid this, ?_⟩
                rw [setKid, if_pos rfl]
                exact h3
          · simp only [hm, if_false]
            exact ⟨by trivial, by trivial, hf⟩

/-! ### The proofs -/

/-- The chain of proofs along a trace of a tree. -/
def chainAlong (E : Env V) (last : UInt8) : List Nib → Node V → List NodeProof
  | _, .nil => []
  | [], .mk p v c => nodeProof E.H E.R E.vh last (.mk p v c)
  | k :: ks, .mk p v c => chainAlong E last ks (c k) ++ nodeProof E.H E.R E.vh (nibByte k) (.mk p v c)

theorem chainAlong_trace (last : UInt8) (a : Node V) : ∀ q, chainAlong E last (trace a q) a = proofAlong E.H E.R E.vh last a q := by
  induction a with
  | nil => intro q; rw [trace, proofAlong, chainAlong]
  | mk p v c ih =>
    intro q
    rw [trace, proofAlong]
    by_cases hq : q = []
    · simp only [hq, if_true, chainAlong]
    · simp only [hq, if_false]
      by_cases hem : isEmpty p v c = true
      · simp only [hem, if_true, chainAlong]
      · simp only [hem, if_false, Bool.false_eq_true]
        by_cases hm : p.drop (matchPrefix p q) = []
        · simp only [hm, if_true]
          cases hd : q.drop (matchPrefix p q) with
          | nil => simp only [chainAlong]
          | cons i q' =>
            simp only
            by_cases hi : (c i).isSome = true
            · simp only [hi, if_true, chainAlong, ih i q']
            · simp only [hi, if_false, Bool.false_eq_true, chainAlong]
        · simp only [hm, if_false, chainAlong]

theorem proveNode_spec (hE : E.Lawful) (g : UInt64) (ptype : UInt8) {i : Info V} {d : Nib → BNode V} {p : List Nib} {v : Option V}
    {c : Nib → Node V} (h : Full E D i d p v c) (hw : WFRoot (.mk p v c)) :
    ∃ x, (proveNode E D g ptype (.mk i d)).2 = some x ∧ [x] = nodeProof E.H E.R E.vh ptype (.mk p v c) ∧
      Rep E D (proveNode E D g ptype (.mk i d)).1 (.mk p v c) := by
  rw [proveNode, infoOK_notCollapsed hE h.ok h.kids hw]
  simp only [Bool.false_eq_true, if_false]
  refine ⟨_, rfl, ?_, ?_⟩
  · rw [nodeProof, headerB_eq h.ok.pre h.value h.kids, hashedValue_eq h.value h.vhash h.ok.stream, kidIds_eq h.kids, proofNumB, proofNum,
      kidIds_eq h.kids]
    congr 2
    apply List.map_congr_left
    intro j hj
    exact hashOf_rep (h.kids j) ((mem_childIds c j).1 hj)
  · obtain ⟨w1, w2, w3, w4, w5, w6, w7, w8, w9⟩ := valueHashed_some (E := E) h.value h.vhash h.ok.stream
    refine Full.rep ⟨⟨?_, w4, Or.inl ⟨w1, w3⟩, ?_, ?_⟩, w1, fun j => (hashed_spec _ (h.kids j)).1⟩
    · rw [w6]; exact h.ok.pre
    · intro x hx; rw [w7] at hx; exact h.ok.hash x hx
    · intro hd; rw [w8] at hd; rw [w7]; exact h.ok.clean hd

theorem proveAlong_spec (hE : E.Lawful) (g : UInt64) (last : UInt8) : ∀ (ks : List Nib) {b : BNode V} {a : Node V}, Open E D ks b a →
    WFRoot a → (proveAlong E D g last ks b).2 = some (chainAlong E last ks a) ∧ Rep E D (proveAlong E D g last ks b).1 a := by
  intro ks
  induction ks with
  | nil =>
    intro b a h hw
    cases a with
    | nil => exact hw.elim
    | mk p v c =>
      obtain ⟨i, d, rfl, hf⟩ := h.full
      obtain ⟨x, h1, h2, h3⟩ := proveNode_spec hE g last hf hw
      rw [proveAlong, chainAlong]
      simp only
      rw [h1, ← h2]
      exact ⟨rfl, h3⟩
  | cons k ks ih =>
    intro b a h hw
    cases a with
    | nil => exact hw.elim
    | mk p v c =>
      obtain ⟨i, d, rfl, hf⟩ := h.full
      have hs : (c k).isSome = true := by
        have h' := h.2
        generalize d k = b' at h'
        cases hck : c k with
        | nil =>
          rw [hck] at h'
          cases b' <;> cases ks <;> exact h'.elim
        | mk p' v' c' => rfl
      obtain ⟨h1, h2⟩ := ih h.2 (WF.root (WFRoot.child hw k) hs)
      obtain ⟨x, e1, e2, e3⟩ := proveNode_spec hE g (nibByte k) (hf.kid h2) hw
      rw [proveAlong, chainAlong]
      simp only
      rw [h1]
      simp only
      rw [e1, ← e2]
      exact ⟨rfl, e3⟩

theorem getProof_spec (hE : E.Lawful) {t : BTrie V} {m : MTrie V} (h : Rep E D t.root m.root) (hw : WFRoot m.root) (key : Bytes) :
    (getProof E D t key).2 = m.getProof E.H E.R E.vh key ∧ Rep E D (getProof E D t key).1.root m.root ∧
      (getProof E D t key).1.gen = t.gen := by
  obtain ⟨h1, h2, h3⟩ := traceF_spec hE t.gen ((keyToPrefix key).length + 1) (keyToPrefix key) (by omega) h hw
  obtain ⟨e1, e2⟩ := proveAlong_spec hE t.gen proofValue _ h3 hw
  rw [getProof, MTrie.getProof, MTrie.get]
  simp only
  rw [h1, h2]
  cases get m.root (keyToPrefix key) with
  | none =>
    refine ⟨rfl, ?_, rfl⟩
    cases hm : m.root with
    | nil => rw [hm] at hw; exact hw.elim
    | mk p v c =>
      rw [hm] at h3
      obtain ⟨i', d', e', hf'⟩ := h3.full
      simp only
      rw [e']
      exact hf'.rep
  | some x =>
    simp only [e1, Option.map_some, chainAlong_trace]
    exact ⟨trivial, e2, trivial⟩

theorem getExistence_spec (hE : E.Lawful) {t : BTrie V} {m : MTrie V} (h : Rep E D t.root m.root) (hw : WFRoot m.root) (key : Bytes) :
    (getExistence E D t key).2 = some (m.getExistence E.H E.R E.vh key) ∧ Rep E D (getExistence E D t key).1.root m.root ∧
      (getExistence E D t key).1.gen = t.gen := by
  obtain ⟨h1, h2, h3⟩ := traceF_spec hE t.gen ((keyToPrefix key).length + 1) (keyToPrefix key) (by omega) h hw
  obtain ⟨e1, e2⟩ := proveAlong_spec hE t.gen proofExistence _ h3 hw
  rw [getExistence, MTrie.getExistence, MTrie.get]
  simp only
  rw [h2, e1, h1, Option.map_some, chainAlong_trace]
  exact ⟨rfl, e2, trivial⟩

/-! ### Sessions with proofs -/

/-- The calls of C07, and the two that make proofs. -/
inductive POp (V : Type) where
  | call (op : SOp V)
  | proof (key : Bytes)
  | existence (key : Bytes)

/-- The answers. -/
inductive POut (V : Type) where
  | out (o : Out V)
  | proof (r : Option (V × List NodeProof))
  | existence (r : Option (Bool × List NodeProof))

/-- One call on a session. -/
def pstep (E : Env V) (F : Faults) (s : Sess V) : POp V → Sess V × POut V
  | .call op => let r := sstep E F s op; (r.1, .out r.2)
  | .proof k => let r := getProof E s.D s.t k; (⟨r.1, s.D⟩, .proof r.2)
  | .existence k => let r := getExistence E s.D s.t k; (⟨r.1, s.D⟩, .existence r.2)

/-- The answers to a sequence of calls. -/
def pouts (E : Env V) (F : Faults) : Sess V → List (POp V) → List (POut V)
  | _, [] => []
  | s, op :: ops => (pstep E F s op).2 :: pouts E F (pstep E F s op).1 ops

/-- The session after them. -/
def prun (E : Env V) (F : Faults) (s : Sess V) (ops : List (POp V)) : Sess V := ops.foldl (fun s op => (pstep E F s op).1) s

/-- The change of the contents a call makes. -/
def POp.change : POp V → Option (Op V)
  | .call op => op.call
  | _ => none

/-- The answer of a trie that is only kept in memory. -/
def panswer (E : Env V) (t : MTrie V) : POp V → POut V
  | .call op => .out (answerT E t op)
  | .proof k => .proof (t.getProof E.H E.R E.vh k)
  | .existence k => .existence (some (t.getExistence E.H E.R E.vh k))

/-- The answers of such a trie. -/
def pexpect (E : Env V) : MTrie V → List (POp V) → List (POut V)
  | _, [] => []
  | t, op :: ops => panswer E t op :: pexpect E (t.run op.change.toList) ops

/-- The changes made by the calls. -/
def changes (ops : List (POp V)) : List (Op V) := ops.filterMap POp.change

/-- The trees the calls go through. -/
def palong (ops : List (POp V)) : Node V → Prop := fun a => ∃ pre, pre <+: ops ∧ a = (newTrie.run (changes pre)).root

section
variable (hE : E.Lawful) {T : Node V → Prop} (hA : Apart E T)
include hE hA

theorem pstep_spec {h : List (Op V)} {s : Sess V} (hs : SInv E s h) (op : POp V) (hT : T (newTrie.run h).root) :
    (pstep E noFaults s op).2 = panswer E (newTrie.run h) op ∧ SInv E (pstep E noFaults s op).1 (h ++ op.change.toList) := by
  cases op with
  | call op =>
    obtain ⟨h1, h2⟩ := sstep_spec hE hA (noFaults_harmless E _) hs op hT
    exact ⟨by rw [pstep, panswer]; simp only; rw [h1], h2⟩
  | proof k =>
    obtain ⟨h1, h2, -⟩ := getProof_spec hE hs.rep (wf_run h) k
    refine ⟨by rw [pstep, panswer]; simp only; rw [h1], ?_⟩
    simp only [POp.change, Option.toList, List.append_nil]
    exact ⟨hs.disk, h2⟩
  | existence k =>
    obtain ⟨h1, h2, -⟩ := getExistence_spec hE hs.rep (wf_run h) k
    refine ⟨by rw [pstep, panswer]; simp only; rw [h1], ?_⟩
    simp only [POp.change, Option.toList, List.append_nil]
    exact ⟨hs.disk, h2⟩

omit hE hA in
theorem changes_cons (op : POp V) (ops : List (POp V)) : changes (op :: ops) = op.change.toList ++ changes ops := by
  rw [changes, List.filterMap_cons]
  cases op.change <;> rfl

theorem prun_spec : ∀ (ops : List (POp V)) {h : List (Op V)} {s : Sess V}, SInv E s h →
    (∀ pre, pre <+: ops → T (newTrie.run (h ++ changes pre)).root) →
    pouts E noFaults s ops = pexpect E (newTrie.run h) ops ∧ SInv E (prun E noFaults s ops) (h ++ changes ops) := by
  intro ops
  induction ops with
  | nil =>
    intro h s hs _
    exact ⟨rfl, by simpa [changes, prun] using hs⟩
  | cons op ops ih =>
    intro h s hs hT
    obtain ⟨h1, h2⟩ := pstep_spec hE hA hs op (by simpa [changes] using hT [] List.nil_prefix)
    obtain ⟨h3, h4⟩ := ih h2 (fun pre hp => by
      have := hT (op :: pre) (List.cons_prefix_cons.2 ⟨rfl, hp⟩)
      rw [changes_cons] at this
      rw [List.append_assoc]; exact this)
    refine ⟨?_, ?_⟩
    · rw [pouts, pexpect, h1, h3, run_append]
    · rw [changes_cons, ← List.append_assoc]
      exact h4

end

/-! ### C140 -/

theorem start_inv {D : Disk} (hD : D.ok) : SInv E ⟨openTrie none, D⟩ ([] : List (Op V)) := ⟨hD, rep_openNil⟩

/-- **C140** Whatever is committed, collapsed and reloaded between the calls, a trie gives the proofs and existence proofs that the trie
gives which is only kept in memory, and making them changes no other answer. -/
theorem C140_sessions (hE : E.Lawful) (ops : List (POp V)) (hA : Apart E (palong ops)) (D : Disk) (hD : D.ok) :
    pouts E noFaults ⟨openTrie none, D⟩ ops = pexpect E newTrie ops :=
  (prun_spec hE hA ops (start_inv hD) fun pre hp => ⟨pre, hp, rfl⟩).1

/-- The key of a call that changes something is in `K`. -/
def KeysIn (K : Bytes → Prop) (ops : List (POp V)) : Prop := ∀ op ∈ changes ops, K op.key

/-- **C140** Every value in a stored trie with prefix-free keys has a proof, and it verifies against the root hash; for other keys
there is none. -/
theorem C140_verifies (hE : E.Lawful) (K : Bytes → Prop) (hK : PrefixFree K) (ops : List (POp V)) (hk : KeysIn K ops)
    (hA : Apart E (palong ops)) (D : Disk) (hD : D.ok) (key : Bytes) (hkey : K key) :
    let s := prun E noFaults ⟨openTrie none, D⟩ ops
    (∀ x, spec (changes ops) key = some x → ∃ c, (getProof E s.D s.t key).2 = some (x, c) ∧
      verifyProofChain E.H E.R (E.vh x) c (s.t.hash E).2 = true) ∧
    (spec (changes ops) key = none → (getProof E s.D s.t key).2 = none) := by
  intro s
  have hs := (prun_spec hE hA ops (start_inv hD) fun pre hp => ⟨pre, hp, rfl⟩).2
  rw [List.nil_append] at hs
  have hw := wf_run (changes ops)
  have hg := (getProof_spec hE hs.rep hw key).1
  have hget : ((newTrie (V := V)).run (changes ops)).get key = spec (changes ops) key := C01_get K hK _ hk key hkey
  refine ⟨fun x hx => ?_, fun hx => ?_⟩
  · rw [hx] at hget
    obtain ⟨c, h1, -, h3⟩ := C09_proof_verifies E.H hE.hH E.R E.vh hE.hv _ key x hget
    refine ⟨c, by rw [← h1]; exact hg, ?_⟩
    rw [(hash_step hs.rep hw).1]
    exact h3
  · rw [hx] at hget
    rw [hg, MTrie.getProof, hget]
    rfl

/-- **C140** For every key a stored trie makes an existence proof, which leads to its root hash and says whether the key is there
and with which value hash. -/
theorem C140_existence (hE : E.Lawful) (K : Bytes → Prop) (hK : PrefixFree K) (ops : List (POp V)) (hk : KeysIn K ops)
    (hA : Apart E (palong ops)) (D : Disk) (hD : D.ok) (key : Bytes) (hkey : K key) (hne : key ≠ []) :
    let s := prun E noFaults ⟨openTrie none, D⟩ ops
    ∃ c, (getExistence E s.D s.t key).2 = some ((spec (changes ops) key).isSome, c) ∧
      existenceHash E.H E.R c = some (s.t.hash E).2 ∧ exist c (keyToPrefix key) = some ((spec (changes ops) key).map E.vh) ∧
      isExist c key = some (spec (changes ops) key).isSome := by
  intro s
  have hs := (prun_spec hE hA ops (start_inv hD) fun pre hp => ⟨pre, hp, rfl⟩).2
  rw [List.nil_append] at hs
  have hw := wf_run (changes ops)
  obtain ⟨h1, h2, h3, h4⟩ := C10_existence_complete E.H hE.hH E.R E.vh hE.hv K hK (changes ops) hk key hkey hne
  refine ⟨_, ?_, ?_, h3, h4⟩
  · rw [(getExistence_spec hE hs.rep hw key).1, ← h1]
  · rw [(hash_step hs.rep hw).1]; exact h2

/-! ### A case -/

/-- The trees on the way. -/
def palongList (ops : List (POp V)) : List (Node V) :=
  (List.range (ops.length + 1)).map fun n => (newTrie.run (changes (ops.take n))).root

theorem palong_mem {ops : List (POp V)} {a : Node V} (h : palong ops a) : a ∈ palongList ops := by
  obtain ⟨pre, hp, rfl⟩ := h
  refine List.mem_map.2 ⟨pre.length, ?_, ?_⟩
  · have := hp.length_le
    rw [List.mem_range]; omega
  · rw [← List.prefix_iff_eq_take.1 hp]

theorem palong_apart {ops : List (POp V)}
    (h1 : ∀ x ∈ (palongList ops).flatMap valuesOf, ∀ y ∈ (palongList ops).flatMap valuesOf, E.vh x = E.vh y → x = y)
    (h2 : ∀ x ∈ (palongList ops).flatMap (inputs E.H E.R E.vh), ∀ y ∈ (palongList ops).flatMap (inputs E.H E.R E.vh), E.H x = E.H y → x = y)
    (h3 : ∀ a ∈ palongList ops, no64b E.R a = true) : Apart E (palong ops) := by
  refine ⟨⟨[], List.nil_prefix, rfl⟩, ?_, fun ha => no64_of (h3 _ (palong_mem ha)), ?_⟩
  · intro a b q r x y ha hb hx hy
    exact h1 x (List.mem_flatMap.2 ⟨a, palong_mem ha, mem_valuesOf hx⟩) y (List.mem_flatMap.2 ⟨b, palong_mem hb, mem_valuesOf hy⟩)
  · rintro a b ha hb ⟨x, hx, y, hy, hne, he⟩
    exact hne (h2 x (List.mem_flatMap.2 ⟨a, palong_mem ha, hx⟩) y (List.mem_flatMap.2 ⟨b, palong_mem hb, hy⟩) he)

/-- Three keys, stored and reloaded, then one deleted after a proof of it was made. -/
def proofCalls : List (POp Bytes) :=
  [.call (.put [0x12, 0x34] [1]), .call (.put [0x12, 0x35] [2]), .call (.put [0x56, 0x78] [3]), .proof [0x12, 0x35],
    .call (.reopen realLimits 7), .proof [0x12, 0x35], .existence [0x12, 0x99], .call (.del [0x12, 0x35]), .proof [0x12, 0x35]]

theorem proofCalls_apart : Apart toyE (palong proofCalls) :=
  palong_apart (by decide +kernel) (by decide +kernel) (by decide +kernel)

example : pouts toyE noFaults ⟨openTrie none, freshDisk⟩ proofCalls = pexpect toyE newTrie proofCalls :=
  C140_sessions toyE_lawful proofCalls proofCalls_apart freshDisk freshDisk_ok

/-- The proof made after the reload has three links and verifies; after the deletion there is none. -/
example : ((pouts toyE noFaults ⟨openTrie none, freshDisk⟩ proofCalls).map fun o => match o with
    | .proof (some (x, c)) => some (x, c.length, verifyProofChain toyE.H toyE.R (toyE.vh x) c
        ((newTrie.run (changes (proofCalls.take 5))).hash toyE.H toyE.R toyE.vh))
    | _ => none) = [none, none, none, some ([2], 3, true), none, some ([2], 3, true), none, none, none] := by decide +kernel

end Verif.Trie.StoreProof

import Verif.Conc.Mutex
import Verif.HTree.Claims

/-!
# A history tree used by several goroutines (`/repo/trie/historytree.go`): C149

Every method takes the lock of the tree.  `Append` is several steps of memory: reading the expected key, making the root,
putting the value below it and counting.  The walk below the root is one step: the nodes are reached through the
tree only, which the lock guards.  `Has` is not among the calls: it never returns (C99).  `Rebase`, `Clone`, `Chop`,
`MergeProof` and `String` are not either.
-/

namespace Verif.HTree.Shared
open Verif Verif.Conc Verif.HTree Verif.Merkle Verif.Trie

/-- The calls. -/
inductive HCall where
  | append (key : UInt64) (v : Bytes)
  | get (key : UInt64)
  | expecting
  | hash
  | getProof (key : UInt64)
  | collapseBefore (key : UInt64)
  | commit
  | commitAndHash

/-- The results. -/
inductive HOut where
  | done (ok : Bool)
  | value (v : Option Bytes)
  | next (k : UInt64)
  | root (r : Option Bytes)
  | proof (p : Option (Bytes × List NodeProof))
  | collapsed (r : Res Unit)

/-- `Append` under the lock (`/repo/trie/historytree.go:386-412`). -/
def appendBody (E : HEnv) (key : UInt64) (v : Bytes) : Prog Tree HOut :=
  .step id fun t =>
    if key ≠ t.expecting then .ret (.done false)
    else if v = [] then .ret (.done false)
    else .step (fun t => { t with root := if t.root.isSome then t.root else newTNode false }) fun _ =>
      .step (fun t => { t with root := (appendAt E t.D (heightToPrefix key) t.root v).1 }) fun t =>
        match (appendAt E t.D (heightToPrefix key) t.root v).2 with
        | none => .ret (.done false)
        | some true => .step (fun t => { t with expecting := t.expecting + 1 }) fun _ => .ret (.done true)
        | some false => .ret (.done true)

/-- `Get` under the lock (`/repo/trie/historytree.go:427-433`). -/
def getBody (E : HEnv) (key : UInt64) : Prog Tree HOut :=
  .step (fun t => (t.get E key).1) fun t => .ret (.value (t.get E key).2)

/-- `Expecting` under the lock (`/repo/trie/historytree.go:50`). -/
def expectingBody : Prog Tree HOut := .step id fun t => .ret (.next t.expecting)

/-- `HashValue` under the lock (`/repo/trie/historytree.go:328`). -/
def hashBody (E : HEnv) : Prog Tree HOut := .step (fun t => (t.hash E).1) fun t => .ret (.root (t.hash E).2)

/-- `GetProof` under the lock (`/repo/trie/historytree.go:443-469`). -/
def getProofBody (E : HEnv) (key : UInt64) : Prog Tree HOut :=
  .step (fun t => (t.getProof E key).1) fun t => .ret (.proof (t.getProof E key).2)

/-- `CollapseBefore` under the lock (`/repo/trie/historytree.go:347-379`). -/
def collapseBody (E : HEnv) (key : UInt64) : Prog Tree HOut :=
  .step (fun t => (t.collapseBefore E key).1) fun t => .ret (.collapsed (t.collapseBefore E key).2)

/-- `Commit` under the lock (`/repo/trie/historytree.go:577`). -/
def commitBody (E : HEnv) : Prog Tree HOut := .step (fun t => (t.commit E).1) fun t => .ret (.done (t.commit E).2)

/-- `CommitAndHash` under the lock (`/repo/trie/historytree.go:334-341`): storing, then hashing. -/
def commitAndHashBody (E : HEnv) : Prog Tree HOut :=
  .step (fun t => (t.commit E).1) fun t =>
    if (t.commit E).2 then .step (fun t => (t.hash E).1) fun t => .ret (.root (t.hash E).2)
    else .ret (.root none)

/-- What each call does with the lock held. -/
def hbody (E : HEnv) : HCall → Prog Tree HOut
  | .append k v => appendBody E k v
  | .get k => getBody E k
  | .expecting => expectingBody
  | .hash => hashBody E
  | .getProof k => getProofBody E k
  | .collapseBefore k => collapseBody E k
  | .commit => commitBody E
  | .commitAndHash => commitAndHashBody E

/-- The calls with their locks (`/repo/trie/historytree.go:47-51, 325-346, 382-384, 423-425, 440-441, 574-578`). -/
def hcode (E : HEnv) : HCall → Code Tree HOut
  | .append k v => .lock (inside (appendBody E k v))
  | .get k => .lock (inside (getBody E k))
  | .expecting => .lock (inside expectingBody)
  | .hash => .lock (inside (hashBody E))
  | .getProof k => .lock (inside (getProofBody E k))
  | .collapseBefore k => .lock (inside (collapseBody E k))
  | .commit => .lock (inside (commitBody E))
  | .commitAndHash => .lock (inside (commitAndHashBody E))

theorem hcode_guarded (E : HEnv) (o : HCall) : hcode E o = guarded (hbody E o) := by
  cases o <;> rfl

/-! ### What is to be answered -/

/-- The values after a call. -/
def after (vals : List Bytes) : HCall → List Bytes
  | .append k v => if k.toNat = vals.length ∧ v ≠ [] then vals ++ [v] else vals
  | _ => vals

/-- The values after calls in an order. -/
def valuesOf {R : Type} (vals : List Bytes) (log : List (Nat × HCall × R)) : List Bytes :=
  log.foldl (fun l e => after l e.2.1) vals

/-- The call writes the storage. -/
def HCall.writes : HCall → Bool
  | .commit => true
  | .commitAndHash => true
  | _ => false

/-- What is to be answered when the values are `vals`. -/
def Said (E : HEnv) (R : Rtl) (vals : List Bytes) : HCall → HOut → Prop
  | .append k v, o => o = .done (decide (k.toNat = vals.length ∧ v ≠ []))
  | .get k, o => o = .value vals[k.toNat]?
  | .expecting, o => ∃ k : UInt64, o = .next k ∧ k.toNat = vals.length
  | .hash, o => o = .root (some ((hspec E.H 64 vals).getD (nilHash E.H)))
  | .getProof k, o =>
    if h : k.toNat < vals.length then ∃ c, o = .proof (some (vals[k.toNat], c)) ∧ chainBigKey c = k.toNat ∧
      ((∀ v ∈ vals, v.length = 32) → chainProof E.H R c vals[k.toNat] = hspec E.H 64 vals)
    else o = .proof none
  | .collapseBefore _, o => ∃ r, o = .collapsed r ∧ r ≠ .panic
  | .commit, o => ∃ b, o = .done b ∧ ((∀ x, E.F x = false) → b = true)
  | .commitAndHash, o => ∃ r, o = .root r ∧ (r = none ∨ r = some ((hspec E.H 64 vals).getD (nilHash E.H))) ∧
      ((∀ x, E.F x = false) → r ≠ none)

/-- The answers to calls in an order. -/
def Told (E : HEnv) (R : Rtl) : List Bytes → List (Nat × HCall × HOut) → Prop
  | _, [] => True
  | vals, (_, c, o) :: log => Said E R vals c o ∧ Told E R (after vals c) log

theorem valuesOf_snoc {R : Type} (vals : List Bytes) (log : List (Nat × HCall × R)) (e : Nat × HCall × R) :
    valuesOf vals (log ++ [e]) = after (valuesOf vals log) e.2.1 := by
  simp [valuesOf, List.foldl_append]

theorem told_snoc {E : HEnv} {R : Rtl} : ∀ (log : List (Nat × HCall × HOut)) (vals : List Bytes) (t : Nat) (c : HCall) (o : HOut),
    Told E R vals log → Said E R (valuesOf vals log) c o → Told E R vals (log ++ [(t, c, o)]) := by
  intro log
  induction log with
  | nil => intro vals t c o _ h; exact ⟨h, trivial⟩
  | cons e log ih => intro vals t c o h hs; exact ⟨h.1, ih _ t c o h.2 hs⟩

theorem after_prefix (vals : List Bytes) (c : HCall) : vals <+: after vals c := by
  cases c <;> simp only [after, List.prefix_refl]
  split
  · exact List.prefix_append _ _
  · exact List.prefix_refl _

theorem appendBody_run (E : HEnv) (k : UInt64) (v : Bytes) (t : Tree) :
    (appendBody E k v).run t = ((t.append E k v).1, .done (t.append E k v).2) := by
  unfold appendBody Tree.append
  simp only [Prog.run, id]
  by_cases hk : k ≠ t.expecting
  · simp only [if_pos hk, Prog.run]
  · simp only [if_neg hk]
    by_cases hv : v = []
    · simp only [if_pos hv, Prog.run]
    · simp only [if_neg hv, Prog.run]
      generalize appendAt E t.D (heightToPrefix k) (if t.root.isSome then t.root else newTNode false) v = r
      obtain ⟨n, b⟩ := r
      rcases b with _ | _ | _ <;> simp [Prog.run]

section
variable {E : HEnv}

theorem hbody_holds (hH : ∀ b, (E.H b).length = 32) (R : Rtl) {final vals : List Bytes} {t : Tree} (hn : vals.length < 2 ^ 64) (c : HCall)
    (hp : vals <+: final) (hf : final.length < 2 ^ 64)
    (hu : c.writes = true → E.C.Lawful ∧ Fair E.H final) (hh : Holds E false t vals) :
    Holds E false ((hbody E c).run t).1 (after vals c) ∧ Said E R vals c ((hbody E c).run t).2 := by
  have huu : ∀ {op : Op}, op.writes = c.writes → op.writes = true → E.C.Lawful ∧ Universe E (Blocks E.H final) ∧ (vals ≠ [] → Blocks E.H final 15 vals) := by
    intro op e hw
    obtain ⟨hC, hF⟩ := hu (by rw [← e]; exact hw)
    exact ⟨hC, fair_universe hH hF, fun h0 => blocks_prefix h0 (by have := hp.length_le; omega) hp⟩
  cases c with
  | append k v =>
    obtain ⟨t', g1, g2, _⟩ := append_holds hH hn hh k v
    simp only [hbody, appendBody_run, g1]
    exact ⟨g2, rfl⟩
  | get k =>
    obtain ⟨h1, h2⟩ := step_holds (U := Blocks E.H final) hH R hn (.get k) (huu rfl) hh
    simp only [step, Answer, Out.value.injEq] at h2
    exact ⟨h1, by simp only [hbody, getBody, Prog.run, Said, h2]⟩
  | expecting => exact ⟨hh, t.expecting, rfl, by rw [hh.1, UInt64.toNat_ofNat_of_lt' (by simpa using hn)]⟩
  | hash =>
    obtain ⟨h1, h2⟩ := step_holds (U := Blocks E.H final) hH R hn .hash (huu rfl) hh
    simp only [step, Answer, Out.root.injEq] at h2
    exact ⟨h1, by simp only [hbody, hashBody, Prog.run, Said, h2]⟩
  | getProof k =>
    obtain ⟨h1, h2⟩ := step_holds (U := Blocks E.H final) hH R hn (.getProof k) (huu rfl) hh
    refine ⟨h1, ?_⟩
    simp only [step, Answer] at h2
    simp only [hbody, getProofBody, Prog.run, Said]
    by_cases hk : k.toNat < vals.length
    · simp only [dif_pos hk] at h2 ⊢
      obtain ⟨c, e, r⟩ := h2
      exact ⟨c, by rw [Out.proof.inj e], r⟩
    · simp only [dif_neg hk] at h2 ⊢
      rw [Out.proof.inj h2]
  | collapseBefore k =>
    obtain ⟨h1, h2⟩ := step_holds (U := Blocks E.H final) hH R hn (.collapseBefore k) (huu rfl) hh
    refine ⟨h1, ?_⟩
    obtain ⟨r, e, hr⟩ := h2
    exact ⟨r, by simp only [hbody, collapseBody, Prog.run]; rw [Out.collapsed.inj e], hr⟩
  | commit =>
    obtain ⟨h1, h2⟩ := step_holds (U := Blocks E.H final) hH R hn .commit (huu rfl) hh
    refine ⟨h1, ?_⟩
    obtain ⟨b, e, hb⟩ := h2
    exact ⟨b, by simp only [hbody, commitBody, Prog.run]; rw [Out.done.inj e], hb⟩
  | commitAndHash =>
    obtain ⟨hC, hU, hv⟩ := huu (op := .commit) rfl rfl
    obtain ⟨t', ok, g1, g2, g3, _⟩ := commit_holds hH hC hU hv hh
    simp only [hbody, commitAndHashBody, Prog.run, g1]
    cases ok with
    | false => exact ⟨g2, none, rfl, .inl rfl, fun hF => by have := g3 hF; cases this⟩
    | true =>
      obtain ⟨t'', f1, f2, _⟩ := hash_holds g2
      simp only [if_true, Prog.run, f1]
      exact ⟨f2, _, rfl, .inr rfl, fun _ => by simp⟩

theorem valuesOf_prefix {R : Type} (vals : List Bytes) : ∀ (log : List (Nat × HCall × R)), vals <+: valuesOf vals log := by
  intro log
  induction log generalizing vals with
  | nil => exact List.prefix_refl _
  | cons e log ih => exact (after_prefix vals e.2.1).trans (ih _)

theorem replays_told (hH : ∀ b, (E.H b).length = 32) (R : Rtl) {s0 s : Tree} {vals : List Bytes} {log : List (Nat × HCall × HOut)}
    (h : Replays (hbody E) s0 log s) (h0 : Holds E false s0 vals) (final : List Bytes) (hp : valuesOf vals log <+: final)
    (hf : final.length < 2 ^ 64)
    (hu : (∃ e ∈ log, e.2.1.writes = true) → E.C.Lawful ∧ Fair E.H final) :
    Holds E false s (valuesOf vals log) ∧ Told E R vals log := by
  induction h with
  | nil => exact ⟨h0, trivial⟩
  | @snoc log s' t o h1 ih =>
    rw [valuesOf_snoc] at hp
    have hp' := (after_prefix (valuesOf vals log) o).trans hp
    obtain ⟨i1, i2⟩ := ih hp' (fun ⟨e, he, hw⟩ => hu ⟨e, List.mem_append_left _ he, hw⟩)
    obtain ⟨b1, b2⟩ := hbody_holds hH R (by have := hp'.length_le; omega) o hp' hf
      (fun hw => hu ⟨_, List.mem_append_right _ (List.mem_singleton.mpr rfl), hw⟩) i1
    rw [valuesOf_snoc]
    exact ⟨b1, told_snoc _ _ _ _ _ i2 b2⟩

end

/-! ### C149 -/

/-- C149: in every execution of any number of goroutines there is an order of the calls in which each answer is that of the
list of the values appended before it: the append at the length is accepted and no other, `Get` gives the value at the
position, `Expecting` the length, the hash is that of the list and so is what the proofs prove.  The order contains the
calls of each goroutine in their order (with at most one that is about to return), and a later point of the execution only
appends to it. -/
theorem C149_linearizable (E : HEnv) (hH : ∀ b, (E.H b).length = 32) (R : Rtl) (D : HDisk) (todo : Nat → List HCall)
    (c c' : Sys Tree HCall HOut) (h : SSteps (hcode E) (sInitial _ _ (emptyTree D) todo) c) (h' : SSteps (hcode E) c c') :
    ∃ log ext,
      (∀ t, entries t log = c.done t ∨ ∃ o r, c.cur t = some (o, .ret r) ∧ entries t log = c.done t ++ [(o, r)]) ∧
      (∀ t, entries t (log ++ ext) = c'.done t ∨
        ∃ o r, c'.cur t = some (o, .ret r) ∧ entries t (log ++ ext) = c'.done t ++ [(o, r)]) ∧
      (∀ t, todo t = (c'.done t).map Prod.fst ++ (c'.cur t).toList.map Prod.fst ++ c'.todo t) ∧
      ((valuesOf [] (log ++ ext)).length < 2 ^ 64 →
        ((∃ e ∈ log ++ ext, e.2.1.writes = true) → E.C.Lawful ∧ Fair E.H (valuesOf [] (log ++ ext))) →
        Told E R [] (log ++ ext)) := by
  obtain ⟨log, h1⟩ := sInv_steps (hcode_guarded E) (sInv_initial (hbody E) (emptyTree D) todo) h
  rw [List.nil_append] at h1
  obtain ⟨ext, h2⟩ := sInv_steps (hcode_guarded E) h1 h'
  obtain ⟨s', r2, _, _⟩ := h2.seq
  exact ⟨log, ext, h1.entries, h2.entries, h2.calls, fun hn hw =>
    (replays_told hH R r2 (holds_empty E false D) _ (List.prefix_refl _) hn hw).2⟩

/-- C149: no execution gets stuck while calls are left. -/
theorem C149_progress (E : HEnv) (D : HDisk) (todo : Nat → List HCall) (c : Sys Tree HCall HOut)
    (h : SSteps (hcode E) (sInitial _ _ (emptyTree D) todo) c) (t : Nat) (ht : (c.done t).map Prod.fst ≠ todo t) :
    ∃ c', SStep (hcode E) c c' := by
  obtain ⟨log, h1⟩ := sInv_steps (hcode_guarded E) (sInv_initial (hbody E) (emptyTree D) todo) h
  exact h1.progress t ht

/-- An accepted append at the key. -/
def accepted (k : UInt64) : HCall × HOut → Bool
  | (.append k' _, .done true) => k' == k
  | _ => false

theorem prefix_getElem? {A : Type} {l l' : List A} (h : l <+: l') {i : Nat} {a : A} (hi : l[i]? = some a) : l'[i]? = some a := by
  obtain ⟨r, rfl⟩ := h
  obtain ⟨hlt, _⟩ := List.getElem?_eq_some_iff.mp hi
  rw [List.getElem?_append_left hlt]
  exact hi

theorem told_late {E : HEnv} {R : Rtl} (k : UInt64) : ∀ (log : List (Nat × HCall × HOut)) (vals : List Bytes),
    Told E R vals log → k.toNat < vals.length → ∀ e ∈ log, accepted k e.2 = false := by
  intro log
  induction log with
  | nil => intro vals _ _ e he; cases he
  | cons e log ih =>
    intro vals h hk e' he
    have hk' : k.toNat < (after vals e.2.1).length := Nat.lt_of_lt_of_le hk (after_prefix vals e.2.1).length_le
    rcases List.mem_cons.mp he with rfl | he
    · obtain ⟨t, c, o⟩ := e'
      have h1 : Said E R vals c o := h.1
      cases c with
      | append k' v =>
        simp only [Said] at h1
        subst h1
        by_cases hd : k'.toNat = vals.length ∧ v ≠ []
        · have : k' ≠ k := by intro e; subst e; omega
          simp [accepted, hd, this]
        · simp [accepted, hd]
      | _ => rfl
    · exact ih _ h.2 hk' e' he

theorem told_once {E : HEnv} {R : Rtl} (k : UInt64) : ∀ (log : List (Nat × HCall × HOut)) (vals : List Bytes),
    Told E R vals log → (log.filter fun e => accepted k e.2).length ≤ 1 := by
  intro log
  induction log with
  | nil => intro vals _; simp
  | cons e log ih =>
    intro vals h
    rw [List.filter_cons]
    split
    · rename_i ha
      obtain ⟨t, c, o⟩ := e
      cases c with
      | append k' v =>
        have h1 := h.1
        simp only [Said] at h1
        subst h1
        by_cases hd : k'.toNat = vals.length ∧ v ≠ []
        · have hk : k' = k := by simpa [accepted, hd] using ha
          subst hk
          have : k'.toNat < (after vals (.append k' v)).length := by
            simp only [after, if_pos hd, List.length_append, List.length_cons, List.length_nil]; omega
          have hz : (log.filter fun e => accepted k' e.2) = [] := by
            rw [List.filter_eq_nil_iff]
            intro e he
            simp [told_late k' log _ h.2 this e he]
          simp [hz]
        · simp [accepted, hd] at ha
      | _ => simp [accepted] at ha
    · exact ih _ h.2

/-- The values seen by `Get` are those of the final list. -/
theorem told_get {E : HEnv} {R : Rtl} (k : UInt64) (v : Bytes) : ∀ (log : List (Nat × HCall × HOut)) (vals : List Bytes),
    Told E R vals log → ∀ t, (t, HCall.get k, HOut.value (some v)) ∈ log → (valuesOf vals log)[k.toNat]? = some v := by
  intro log
  induction log with
  | nil => intro vals _ t h; cases h
  | cons e log ih =>
    intro vals h t ht
    rcases List.mem_cons.mp ht with rfl | ht
    · have h1 := h.1
      simp only [Said, HOut.value.injEq] at h1
      have hp : vals <+: valuesOf vals ((t, HCall.get k, HOut.value (some v)) :: log) := valuesOf_prefix vals _
      exact prefix_getElem? hp h1.symm
    · exact ih _ h.2 t ht

theorem told_put {E : HEnv} {R : Rtl} (k : UInt64) (v : Bytes) : ∀ (log : List (Nat × HCall × HOut)) (vals : List Bytes),
    Told E R vals log → ∀ t, (t, HCall.append k v, HOut.done true) ∈ log → (valuesOf vals log)[k.toNat]? = some v := by
  intro log
  induction log with
  | nil => intro vals _ t h; cases h
  | cons e log ih =>
    intro vals h t ht
    rcases List.mem_cons.mp ht with rfl | ht
    · have h1 := h.1
      simp only [Said, HOut.done.injEq] at h1
      have hd : k.toNat = vals.length ∧ v ≠ [] := by simpa using h1.symm
      have hp : vals ++ [v] <+: valuesOf vals ((t, HCall.append k v, HOut.done true) :: log) := by
        have := valuesOf_prefix (after vals (.append k v)) log
        simp only [after, if_pos hd] at this
        simpa only [valuesOf, List.foldl_cons, after, if_pos hd] using this
      exact prefix_getElem? hp (by rw [hd.1]; simp)
    · exact ih _ h.2 t ht

theorem mem_entries {O R : Type} {t : Nat} {log : List (Nat × O × R)} {e : O × R} : e ∈ entries t log ↔ (t, e) ∈ log := by
  simp only [entries, List.mem_map, List.mem_filter, beq_iff_eq]
  constructor
  · rintro ⟨⟨u, e'⟩, ⟨h1, h2⟩, h3⟩
    simp only at h2 h3
    subst h2 h3
    exact h1
  · intro h
    exact ⟨(t, e), ⟨h, rfl⟩, rfl⟩

section Corollaries
variable (E : HEnv) (hH : ∀ b, (E.H b).length = 32) (D : HDisk) (todo : Nat → List HCall)
  (hmax : ∀ t k v, HCall.append k v ∈ todo t → k.toNat + 1 < 2 ^ 64)
  (hw : ∀ t, ∀ o ∈ todo t, o.writes = false)
  (c : Sys Tree HCall HOut) (h : SSteps (hcode E) (sInitial _ _ (emptyTree D) todo) c)

theorem valuesOf_lt {R : Type} : ∀ (log : List (Nat × HCall × R)) (vals : List Bytes), vals.length < 2 ^ 64 →
    (∀ e ∈ log, ∀ k v, e.2.1 = HCall.append k v → k.toNat + 1 < 2 ^ 64) → (valuesOf vals log).length < 2 ^ 64 := by
  intro log
  induction log with
  | nil => intro vals h _; exact h
  | cons e log ih =>
    intro vals h hm
    refine ih (after vals e.2.1) ?_ (fun e' he' => hm e' (List.mem_cons_of_mem _ he'))
    have := hm e (List.mem_cons_self ..)
    cases hc : e.2.1 with
    | append k v =>
      have hk := this k v hc
      simp only [after]
      split
      · rename_i hd
        simp only [List.length_append, List.length_cons, List.length_nil]; omega
      · exact h
    | _ => exact h

include hH hmax hw h in
theorem told_done : ∃ log, (∀ t, c.done t <+: entries t log) ∧ Told E toyRtl [] log := by
  obtain ⟨log, ext, _, h1, h2, h3⟩ := C149_linearizable E hH toyRtl D todo c c h (.refl c)
  have hcalls : ∀ e ∈ log ++ ext, e.2.1 ∈ todo e.1 := by
    intro e he
    have hm : e.2 ∈ entries e.1 (log ++ ext) := mem_entries.mpr he
    rw [h2 e.1]
    rcases h1 e.1 with h1 | ⟨o, r, hc, h1⟩
    · rw [h1] at hm
      simp only [List.append_assoc, List.mem_append]
      exact .inl (List.mem_map.mpr ⟨_, hm, rfl⟩)
    · rw [h1] at hm
      simp only [List.append_assoc, List.mem_append]
      rcases List.mem_append.mp hm with hm | hm
      · exact .inl (List.mem_map.mpr ⟨_, hm, rfl⟩)
      · rw [List.mem_singleton] at hm
        right; left
        rw [hc, hm]
        simp
  refine ⟨log ++ ext, ?_, h3 ?_ ?_⟩
  · intro t
    rcases h1 t with h1 | ⟨o, r, _, h1⟩
    · rw [h1]; exact List.prefix_refl _
    · rw [h1]; exact List.prefix_append _ _
  · refine valuesOf_lt _ _ (by simp) ?_
    intro e he k v hk
    exact hmax e.1 k v (by rw [← hk]; exact hcalls e he)
  · rintro ⟨e, he, hw'⟩
    rw [hw e.1 _ (hcalls e he)] at hw'
    cases hw'

include hH hmax hw h in
/-- C149: of all the appends at one key, by whichever goroutines, at most one is accepted (goroutines that append and read
only). -/
theorem C149_once (k : UInt64) :
    (∀ t, ((c.done t).filter (accepted k)).length ≤ 1) ∧
    ∀ t u, t ≠ u → (∃ e ∈ c.done t, accepted k e = true) → ∀ e ∈ c.done u, accepted k e = false := by
  obtain ⟨log, h1, h2⟩ := told_done E hH D todo hmax hw c h
  have hone := told_once k log [] h2
  constructor
  · intro t
    have hs : List.Sublist ((c.done t).filter (accepted k)) ((entries t log).filter (accepted k)) := (h1 t).sublist.filter _
    have he : ((entries t log).filter (accepted k)).length ≤ (log.filter fun e => accepted k e.2).length := by
      simp only [entries, List.filter_map, List.length_map, List.filter_filter]
      exact (List.monotone_filter_right _ (by intro a; simp only [Function.comp, Bool.and_eq_true]; exact fun h => h.1)).length_le
    exact Nat.le_trans hs.length_le (Nat.le_trans he hone)
  · rintro t u htu ⟨e, he, ha⟩ e' he'
    by_contra hb
    simp only [Bool.not_eq_false] at hb
    have m1 : (t, e) ∈ log.filter fun e => accepted k e.2 := List.mem_filter.mpr ⟨mem_entries.mp ((h1 t).subset he), ha⟩
    have m2 : (u, e') ∈ log.filter fun e => accepted k e.2 := List.mem_filter.mpr ⟨mem_entries.mp ((h1 u).subset he'), hb⟩
    match hl : log.filter fun e => accepted k e.2 with
    | [] => rw [hl] at m1; cases m1
    | [x] =>
      rw [hl] at m1 m2
      have e1 := List.mem_singleton.mp m1
      have e2 := List.mem_singleton.mp m2
      exact htu (congrArg Prod.fst (e1.trans e2.symm))
    | x :: y :: l => rw [hl] at hone; simp at hone

include hH hmax hw h in
/-- C149: all the goroutines that read a key and get a value get the same one, and it is the one whose append was
accepted. -/
theorem C149_agree (k : UInt64) (v v' : Bytes) (t u : Nat) (h1 : (HCall.get k, HOut.value (some v)) ∈ c.done t)
    (h2 : (HCall.get k, HOut.value (some v')) ∈ c.done u ∨ (HCall.append k v', HOut.done true) ∈ c.done u) : v = v' := by
  obtain ⟨log, g1, g2⟩ := told_done E hH D todo hmax hw c h
  have e1 := told_get k v log [] g2 t (mem_entries.mp ((g1 t).subset h1))
  rcases h2 with h2 | h2
  · have e2 := told_get k v' log [] g2 u (mem_entries.mp ((g1 u).subset h2))
    exact Option.some.inj (e1.symm.trans e2)
  · have e2 := told_put k v' log [] g2 u (mem_entries.mp ((g1 u).subset h2))
    exact Option.some.inj (e1.symm.trans e2)

end Corollaries

/-! ### An example: two goroutines race for the first key -/

theorem inside_runs {S O R : Type} {code : O → Code S R} (t : Nat) (o : O) : ∀ (p : Prog S R) (c : Sys S O R),
    c.mutex = some t → c.cur t = some (o, inside p) →
    ∃ c', SSteps code c c' ∧ c'.shared = (p.run c.shared).1 ∧ c'.mutex = none ∧ c'.todo = c.todo ∧
      c'.done = upd c.done t (c.done t ++ [(o, (p.run c.shared).2)]) ∧ c'.cur = upd c.cur t none := by
  intro p
  induction p with
  | ret r =>
    rintro ⟨s, m, cur, todo, done⟩ hm hc
    simp only at hm hc
    subst hm
    refine ⟨_, .tail (.tail (.refl _) (.unlock t o (.ret r) hc)) (.ret t o r (by simp [upd])), rfl, rfl, rfl, rfl, ?_⟩
    funext u
    by_cases e : u = t <;> simp [upd, e]
  | step w k ih =>
    rintro ⟨s, m, cur, todo, done⟩ hm hc
    simp only at hm hc
    subst hm
    obtain ⟨c', h1, h2, h3, h4, h5, h6⟩ := ih s ⟨w s, some t, upd cur t (some (o, inside (k s))), todo, done⟩ rfl (by simp [upd])
    refine ⟨c', ?_, h2, h3, h4, h5, ?_⟩
    · have st : SStep code ⟨s, some t, cur, todo, done⟩ ⟨w s, some t, upd cur t (some (o, inside (k s))), todo, done⟩ :=
        .act t o w (fun s => inside (k s)) hc
      clear h2 h3 h4 h5 h6 ih
      generalize hd : (⟨w s, some t, upd cur t (some (o, inside (k s))), todo, done⟩ : Sys S O R) = d at h1 st
      clear hd
      induction h1 with
      | refl => exact .tail (.refl _) st
      | tail _ s2 ih => exact .tail ih s2
    · rw [h6]
      funext u
      by_cases e : u = t <;> simp [upd, e]

/-- Two goroutines that append different values at key 0; the second is called first, waits for the lock and loses. -/
example : ∃ c, SSteps (hcode toyHE) (sInitial _ _ (emptyTree noDisk)
      (fun t => if t = 0 then [.append 0 (toyLeaf 1)] else if t = 1 then [.append 0 (toyLeaf 2)] else [])) c ∧
    c.done 0 = [(.append 0 (toyLeaf 1), .done true)] ∧ c.done 1 = [(.append 0 (toyLeaf 2), .done false)] := by
  obtain ⟨c1, s1, e1, m1, t1, d1, q1⟩ := inside_runs (code := hcode toyHE) 0 (HCall.append 0 (toyLeaf 1)) (appendBody toyHE 0 (toyLeaf 1))
    ⟨emptyTree noDisk, some 0, upd (upd (upd (fun _ => none) 1 (some (HCall.append 0 (toyLeaf 2), .lock (inside (appendBody toyHE 0 (toyLeaf 2))))))
      0 (some (HCall.append 0 (toyLeaf 1), .lock (inside (appendBody toyHE 0 (toyLeaf 1)))))) 0 (some (HCall.append 0 (toyLeaf 1), inside (appendBody toyHE 0 (toyLeaf 1)))),
      upd (upd (fun t => if t = 0 then [.append 0 (toyLeaf 1)] else if t = 1 then [.append 0 (toyLeaf 2)] else []) 1 []) 0 [], fun _ => []⟩ rfl rfl
  obtain ⟨sh, mu, cu, td, dn⟩ := c1
  simp only at e1 m1 t1 d1 q1
  subst m1 t1 d1 q1
  obtain ⟨c2, s2, e2, m2, t2, d2, q2⟩ := inside_runs (code := hcode toyHE) 1 (HCall.append 0 (toyLeaf 2)) (appendBody toyHE 0 (toyLeaf 2))
    ⟨sh, some 1, upd _ 1 (some (HCall.append 0 (toyLeaf 2), inside (appendBody toyHE 0 (toyLeaf 2)))), _, _⟩ rfl rfl
  refine ⟨c2, ?_, ?_, ?_⟩
  · have trans : ∀ {a b c : Sys Tree HCall HOut}, SSteps (hcode toyHE) a b → SSteps (hcode toyHE) b c → SSteps (hcode toyHE) a c := by
      intro a b c h1 h2
      induction h2 with
      | refl => exact h1
      | tail _ s ih => exact .tail ih s
    refine trans (.tail (.tail (.tail (.refl _) (.call 1 _ [] rfl rfl)) (.call 0 _ [] rfl rfl)) (.lock 0 _ _ rfl)) ?_
    refine trans s1 ?_
    exact trans (.tail (.refl _) (.lock 1 _ (inside (appendBody toyHE 0 (toyLeaf 2))) rfl)) s2
  · rw [d2]
    simp only [upd, appendBody_run]
    have : ((emptyTree noDisk).append toyHE 0 (toyLeaf 1)).2 = true := by decide +kernel
    simp [this]
  · rw [d2, e1]
    simp only [upd, appendBody_run]
    have : ((((emptyTree noDisk).append toyHE 0 (toyLeaf 1)).1).append toyHE 0 (toyLeaf 2)).2 = false := by decide +kernel
    simp [this]

end Verif.HTree.Shared

import Verif.HTree.Claims

/-!
# The history tree that can be rolled back

`RevertableHistoryTree` (`/repo/trie/revertable.go:334-513`): calls and what they do.  Two trees over one storage: `Origin`, the
committed one, and `Live`, the one that values are appended to, made by the first `Append`.

Every call holds the lock of the structure, so calls are one after the other.  Not here: `Has` (never returns, C99),
`MergeProof`, `Rebase`, `String`.
-/

namespace Verif.HTree
open Verif Verif.Merkle Verif.Trie

/-- A tree without its storage: the next key and the root. -/
abbrev Core := UInt64 × TNode

/-- The tree with the storage. -/
def Core.on (c : Core) (D : HDisk) : Tree := ⟨c.1, c.2, D⟩

def Tree.core (t : Tree) : Core := (t.expecting, t.root)

/-- `RevertableHistoryTree` (`/repo/trie/revertable.go:334-339`) with the storage both trees are on; `none` is a nil pointer.  The
list `chkpts` is never read. -/
structure RTree where
  D : HDisk
  origin : Option Core
  live : Option Core

/-- `HistoryTree.Clone` (`/repo/trie/historytree.go:304-316`): the tree itself after `_commit` and `_hashValue`, and the clone, a
nil pointer if it cannot be read.  All errors are dropped; without a hash, the clone is opened at the nil slice. -/
def Tree.clone (E : HEnv) (t : Tree) : Tree × Option Core :=
  let h := (t.commit E).1.hash E
  (h.1, (openTree E h.1.D (h.2.getD []) false).map Tree.core)

/-- `_checkLive` (`/repo/trie/revertable.go:341-350`) when `Origin` is not nil: the structure and the live tree. -/
def RTree.checkLive (E : HEnv) (s : RTree) (o : Core) : RTree × Core :=
  match s.live with
  | some l => (s, l)
  | none =>
    let c := (o.on s.D).clone E
    (⟨c.1.D, c.2, some c.1.core⟩, c.1.core)

/-- The calls. -/
inductive ROp where
  | append (key : UInt64) (v : Bytes)
  | expecting
  | hash
  | commitAndHash
  | preHash
  | preCommit
  | preCollapseBefore (key : UInt64)
  | collapseBefore (key : UInt64)
  | commit
  | get (key : UInt64)
  | getProof (key : UInt64)
  | rollback

/-- The results. -/
inductive ROut where
  | done (ok : Bool)
  | next (n : UInt64)
  | root (r : Option Bytes)
  | value (v : Option Bytes)
  | proof (p : Option (Bytes × List NodeProof))
  | collapsed (r : Res Unit)
  | panic

/-- The structure after a call on `Origin`. -/
def RTree.putO (s : RTree) (t : Tree) : RTree := ⟨t.D, some t.core, s.live⟩

/-- The structure after a call on `Live`. -/
def RTree.putL (s : RTree) (t : Tree) : RTree := ⟨t.D, s.origin, some t.core⟩

/-- `_prepareCommit` (`/repo/trie/revertable.go:438-444`). -/
def RTree.prepareCommit (s : RTree) : RTree :=
  match s.live with
  | some l => ⟨s.D, some l, none⟩
  | none => s

/-- `HistoryTree.CommitAndHash` (`/repo/trie/historytree.go:331-342`). -/
def Tree.commitAndHash (E : HEnv) (t : Tree) : Tree × Option Bytes :=
  let c := t.commit E
  if c.2 then c.1.hash E else (c.1, none)

/-- One call (`/repo/trie/revertable.go:352-503`). -/
def rstep (E : HEnv) (s : RTree) : ROp → RTree × ROut
  -- 352-359, 341-350
  | .append k v =>
    match s.origin with
    | none => match s.live with
      | none => (s, .done false)
      | some l => let r := (l.on s.D).append E k v; (s.putL r.1, .done r.2)
    | some o =>
      let c := s.checkLive E o
      let r := (c.2.on c.1.D).append E k v
      (c.1.putL r.1, .done r.2)
  -- 361-368
  | .expecting => (s, .next (match s.origin with | none => UInt64.ofNat (2 ^ 64 - 1) | some o => o.1))
  -- 370-377
  | .hash =>
    match s.origin with
    | none => (s, .root (some []))
    | some o => let r := (o.on s.D).hash E; (s.putO r.1, .root r.2)
  -- 379-384
  | .commitAndHash =>
    let s := s.prepareCommit
    match s.origin with
    | none => (s, .panic)
    | some o => let r := (o.on s.D).commitAndHash E; (s.putO r.1, .root r.2)
  -- 386-397
  | .preHash =>
    match s.live, s.origin with
    | none, none => (s, .root (some []))
    | none, some o => let r := (o.on s.D).hash E; (s.putO r.1, .root r.2)
    | some l, _ => let r := (l.on s.D).hash E; (s.putL r.1, .root r.2)
  -- 399-417
  | .preCommit =>
    match s.live, s.origin with
    | none, none => (s, .root (some []))
    | none, some o => let r := (o.on s.D).hash E; (s.putO r.1, .root r.2)
    | some l, _ => let r := (l.on s.D).commitAndHash E; (s.putL r.1, .root r.2)
  -- 419-427
  | .preCollapseBefore k =>
    match s.live with
    | none => (s, .collapsed (.ok ()))
    | some l => let r := (l.on s.D).collapseBefore E k; (s.putL r.1, .collapsed r.2)
  -- 429-436
  | .collapseBefore k =>
    match s.origin with
    | none => (s, .collapsed (.ok ()))
    | some o => let r := (o.on s.D).collapseBefore E k; (s.putO r.1, .collapsed r.2)
  -- 446-451
  | .commit =>
    let s := s.prepareCommit
    match s.origin with
    | none => (s, .panic)
    | some o => let r := (o.on s.D).commit E; (s.putO r.1, .done r.2)
  -- 459-463
  | .get k =>
    match s.origin with
    | none => (s, .panic)
    | some o => let r := (o.on s.D).get E k; (s.putO r.1, .value r.2)
  -- 465-469
  | .getProof k =>
    match s.origin with
    | none => (s, .proof none)
    | some o => let r := (o.on s.D).getProof E k; (s.putO r.1, .proof r.2)
  -- 496-504
  | .rollback => (⟨s.D, s.origin, none⟩, .done true)

/-- A sequence of calls. -/
def rrun (E : HEnv) (s : RTree) : List ROp → RTree × List ROut
  | [] => (s, [])
  | op :: ops => let r := rstep E s op; let q := rrun E r.1 ops; (q.1, r.2 :: q.2)

/-! ### What the calls should do

Two lists: the committed values and the pending ones. -/

/-- The committed and the pending values. -/
structure Two where
  committed : List Bytes
  pending : List Bytes
deriving DecidableEq

/-- The lists after a call. -/
def Two.step (w : Two) : ROp → Two
  | .append k v => if k.toNat = w.pending.length ∧ v ≠ [] then ⟨w.committed, w.pending ++ [v]⟩ else w
  | .commit => ⟨w.pending, w.pending⟩
  | .commitAndHash => ⟨w.pending, w.pending⟩
  | .rollback => ⟨w.committed, w.committed⟩
  | _ => w

/-- The lists after the calls. -/
def Two.run (w : Two) (ops : List ROp) : Two := ops.foldl Two.step w

/-- The root hash of a list of values. -/
def rootOf (H : Bytes → Bytes) (vals : List Bytes) : Bytes := (hspec H 64 vals).getD (nilHash H)

/-- What is to be answered. -/
def Two.Answer (E : HEnv) (R : Rtl) (w : Two) : ROp → ROut → Prop
  | .append k v, o => o = .done (decide (k.toNat = w.pending.length ∧ v ≠ []))
  | .expecting, o => ∃ n, o = .next n ∧ n.toNat = w.committed.length
  | .hash, o => o = .root (some (rootOf E.H w.committed))
  | .commitAndHash, o => o = .root (some (rootOf E.H w.pending))
  | .preHash, o => o = .root (some (rootOf E.H w.pending))
  | .preCommit, o => o = .root (some (rootOf E.H w.pending))
  | .preCollapseBefore _, o => ∃ r, o = .collapsed r ∧ r ≠ .panic
  | .collapseBefore _, o => ∃ r, o = .collapsed r ∧ r ≠ .panic
  | .commit, o => o = .done true
  | .get k, o => o = .value w.committed[k.toNat]?
  | .getProof k, o =>
    if h : k.toNat < w.committed.length then ∃ c, o = .proof (some (w.committed[k.toNat], c)) ∧ chainBigKey c = k.toNat ∧
      ((∀ v ∈ w.committed, v.length = 32) → chainProof E.H R c w.committed[k.toNat] = hspec E.H 64 w.committed)
    else o = .proof none
  | .rollback, o => o = .done true

/-- All the answers. -/
def Two.Answers (E : HEnv) (R : Rtl) (w : Two) : List ROp → List ROut → Prop
  | [], os => os = []
  | op :: ops, o :: os => w.Answer E R op o ∧ (w.step op).Answers E R ops os
  | _ :: _, [] => False

/-- The pending lists on the way. -/
def Two.seen (w : Two) : List ROp → List (List Bytes)
  | [] => [w.pending]
  | op :: ops => w.pending :: (w.step op).seen ops

/-- The values of the lists. -/
def ValOf (ls : List (List Bytes)) (v : Bytes) : Prop := ∃ l ∈ ls, v ∈ l

/-- What is hashed for the lists. -/
def InputOf (H : Bytes → Bytes) (ls : List (List Bytes)) (x : Bytes) : Prop := x = [] ∨ ∃ l ∈ ls, x ∈ inputs H 64 l

/-! ### Proofs -/

section
variable {E : HEnv} {U : Nat → List Bytes → Prop}

theorem holds_ext (hU : Universe E U) {t : Tree} {D' : HDisk} {vals : List Bytes} (hu : vals ≠ [] → U 15 vals)
    (he : Ext E false U t.D D') (hh : Holds E false t vals) : Holds E false (t.core.on D') vals := by
  obtain ⟨h1, h2⟩ := hh
  refine ⟨h1, ?_⟩
  rcases h2 with h2 | h2
  · exact .inl h2
  · have hne : vals ≠ [] := by
      have := h2
      rw [rep_eq] at this
      exact this.1
    exact .inr (rep_ext hU he 15 _ _ (hu hne) h2)

theorem commit_ext (hH : ∀ b, (E.H b).length = 32) (hC : E.C.Lawful) (hU : Universe E U) {t : Tree} {vals : List Bytes}
    (hu : vals ≠ [] → U 15 vals) (hh : Holds E false t vals) : Ext E false U t.D (t.commit E).1.D := by
  obtain ⟨he, hr⟩ := hh
  unfold Tree.commit
  rcases hr with ⟨h1, h2⟩ | h1
  · rw [h2]
    simp only [commitNode]
    exact Ext.refl
  · have hne : vals ≠ [] := by
      have := h1
      rw [rep_eq] at this
      exact this.1
    obtain ⟨n', D', ok, g1, g2, g3, g4, g5⟩ := commit_spec hH hC hU 15 t.D _ vals (hu hne) h1
    rw [g1]
    exact g2

theorem clone_holds (hH : ∀ b, (E.H b).length = 32) (hC : E.C.Lawful) (hU : Universe E U) (hF : ∀ x, E.F x = false) {t : Tree}
    {vals : List Bytes} (hn : vals.length < 2 ^ 64) (hu : vals ≠ [] → U 15 vals) (hh : Holds E false t vals) :
    ∃ t' c, t.clone E = (t', some c) ∧ Holds E false t' vals ∧ Holds E false (c.on t'.D) vals ∧ Ext E false U t.D t'.D := by
  have hx := commit_ext hH hC hU hu hh
  obtain ⟨t1, ok, e1, e2, e3, e4⟩ := commit_holds hH hC hU hu hh
  have hok := e3 hF
  subst hok
  rw [e1] at hx
  obtain ⟨t2, f1, f2, f3, _⟩ := hash_holds e2
  have hD : Ext E false U t.D t2.D := by rw [f3]; exact hx
  unfold Tree.clone
  rw [e1]
  simp only [f1, Option.getD_some]
  by_cases h0 : vals = []
  · subst h0
    have : openTree E t2.D ((hspec E.H 64 []).getD (nilHash E.H)) false = some ⟨0, .nil, t2.D⟩ := by
      unfold openTree
      rw [if_pos (.inr (by rw [hspec_nil]; rfl))]
    rw [this]
    exact ⟨_, _, rfl, f2, ⟨rfl, .inl ⟨rfl, rfl⟩⟩, hD⟩
  · obtain ⟨x, hx'⟩ := hspec_some (H := E.H) (k := 64) h0
    have hne : x ≠ nilHash E.H := by
      intro e
      exact hU.notNil (hu h0) (hx'.trans (congrArg some e))
    have hst : Stored E t2.D false 15 vals := by rw [f3]; exact e4 rfl h0
    obtain ⟨t3, g1, g2, g3⟩ := open_holds hH false h0 (by omega) hst hx' hne
    rw [hx', Option.getD_some, g1]
    refine ⟨_, _, rfl, f2, ?_, hD⟩
    show Holds E false ⟨t3.expecting, t3.root, t2.D⟩ vals
    rw [← g2]
    exact g3

/-- The structure holds the two lists. -/
def RHolds (E : HEnv) (s : RTree) (w : Two) : Prop :=
  ∃ o, s.origin = some o ∧ Holds E false (o.on s.D) w.committed ∧
    match s.live with
    | none => w.pending = w.committed
    | some l => Holds E false (l.on s.D) w.pending

theorem on_core (t : Tree) : t.core.on t.D = t := rfl

theorem rholds_putO {s : RTree} {w : Two} {t : Tree} (hD : t.D = s.D) (ht : Holds E false t w.committed)
    (hl : match s.live with | none => w.pending = w.committed | some l => Holds E false (l.on s.D) w.pending) :
    RHolds E (s.putO t) w := by
  refine ⟨t.core, rfl, ht, ?_⟩
  show match s.live with | none => _ | some l => Holds E false (l.on t.D) _
  rw [hD]
  exact hl

theorem rholds_putL {s : RTree} {w : Two} {o : Core} {t : Tree} {vals : List Bytes} (hU : Universe E U)
    (ho : s.origin = some o) (hc : Holds E false (o.on s.D) w.committed) (hu : w.committed ≠ [] → U 15 w.committed)
    (hx : Ext E false U s.D t.D) (ht : Holds E false t vals) : RHolds E (s.putL t) ⟨w.committed, vals⟩ :=
  ⟨o, ho, holds_ext hU hu (t := o.on s.D) hx hc, ht⟩

theorem commitAndHash_holds (hH : ∀ b, (E.H b).length = 32) (hC : E.C.Lawful) (hU : Universe E U) (hF : ∀ x, E.F x = false) {t : Tree}
    {vals : List Bytes} (hu : vals ≠ [] → U 15 vals) (hh : Holds E false t vals) :
    ∃ t', t.commitAndHash E = (t', some (rootOf E.H vals)) ∧ Holds E false t' vals ∧ Ext E false U t.D t'.D ∧
      (vals ≠ [] → Stored E t'.D false 15 vals) := by
  have hx := commit_ext hH hC hU hu hh
  obtain ⟨t1, ok, e1, e2, e3, e4⟩ := commit_holds hH hC hU hu hh
  have hok := e3 hF
  subst hok
  rw [e1] at hx
  obtain ⟨t2, f1, f2, f3, _⟩ := hash_holds e2
  unfold Tree.commitAndHash
  rw [e1]
  simp only [if_true, f1]
  exact ⟨_, rfl, f2, by rw [f3]; exact hx, fun h0 => by rw [f3]; exact e4 rfl h0⟩

theorem rstep_holds (hH : ∀ b, (E.H b).length = 32) (hC : E.C.Lawful) (hU : Universe E U) (hF : ∀ x, E.F x = false) (R : Rtl)
    {s : RTree} {w : Two} (hn : w.pending.length < 2 ^ 64) (hm : w.committed.length < 2 ^ 64)
    (hu : w.committed ≠ [] → U 15 w.committed) (hv : w.pending ≠ [] → U 15 w.pending) (op : ROp) (hh : RHolds E s w) :
    RHolds E (rstep E s op).1 (w.step op) ∧ w.Answer E R op (rstep E s op).2 := by
  obtain ⟨o, ho, hc, hl⟩ := hh
  have hlive : ∀ l, s.live = some l → Holds E false (l.on s.D) w.pending := fun l e => by rw [e] at hl; exact hl
  have hnone : s.live = none → w.pending = w.committed := fun e => by rw [e] at hl; exact hl
  cases op with
  | append k v =>
    simp only [rstep, ho, Two.step, Two.Answer]
    obtain ⟨s1, l, hs1, ho1, hc1, hl1⟩ : ∃ s1 l, s.checkLive E o = (s1, l) ∧ (∃ o1, s1.origin = some o1 ∧
        Holds E false (o1.on s1.D) w.committed) ∧ True ∧ Holds E false (l.on s1.D) w.pending := by
      unfold RTree.checkLive
      cases e : s.live with
      | some l => exact ⟨_, _, rfl, ⟨o, ho, hc⟩, trivial, hlive l e⟩
      | none =>
        obtain ⟨t', c, e1, e2, e3, _⟩ := clone_holds hH hC hU hF hm hu hc
        simp only [e1]
        exact ⟨_, _, rfl, ⟨c, rfl, e3⟩, trivial, by rw [hnone e]; exact e2⟩
    obtain ⟨o1, ho1, hc1⟩ := ho1
    rw [hs1]
    simp only
    obtain ⟨t', g1, g2, g3⟩ := append_holds hH hn hl1 k v
    simp only [g1]
    refine ⟨?_, trivial⟩
    have := rholds_putL (t := t') hU ho1 hc1 hu (by rw [g3]; exact Ext.refl) g2
    simp only [specStep] at this
    split
    · rename_i hk; rw [if_pos hk] at this; exact this
    · rename_i hk; rw [if_neg hk] at this; exact this
  | expecting =>
    simp only [rstep, ho, Two.step, Two.Answer]
    refine ⟨⟨o, ho, hc, hl⟩, _, rfl, ?_⟩
    have : o.1 = UInt64.ofNat w.committed.length := hc.1
    rw [this, UInt64.toNat_ofNat_of_lt' (by simpa using hm)]
  | hash =>
    simp only [rstep, ho, Two.step, Two.Answer]
    obtain ⟨t', g1, g2, g3, _⟩ := hash_holds hc
    simp only [g1]
    exact ⟨rholds_putO g3 g2 hl, rfl⟩
  | commitAndHash =>
    simp only [rstep, RTree.prepareCommit, Two.step, Two.Answer]
    cases e : s.live with
    | none =>
      simp only [ho]
      obtain ⟨t', g1, g2, g3, _⟩ := commitAndHash_holds hH hC hU hF hu hc
      simp only [g1, hnone e]
      refine ⟨⟨t'.core, rfl, g2, ?_⟩, trivial⟩
      show match s.live with | none => _ | some l => _
      rw [e]
    | some l =>
      obtain ⟨t', g1, g2, g3, _⟩ := commitAndHash_holds hH hC hU hF hv (hlive l e)
      simp only [g1]
      exact ⟨⟨t'.core, rfl, g2, rfl⟩, trivial⟩
  | preHash =>
    simp only [rstep, Two.step, Two.Answer]
    cases e : s.live with
    | none =>
      simp only [ho]
      obtain ⟨t', g1, g2, g3, _⟩ := hash_holds hc
      simp only [g1]
      exact ⟨rholds_putO g3 g2 hl, by rw [hnone e]; rfl⟩
    | some l =>
      obtain ⟨t', g1, g2, g3, _⟩ := hash_holds (hlive l e)
      simp only [g1]
      exact ⟨rholds_putL hU ho hc hu (by rw [g3]; exact Ext.refl) g2, rfl⟩
  | preCommit =>
    simp only [rstep, Two.step, Two.Answer]
    cases e : s.live with
    | none =>
      simp only [ho]
      obtain ⟨t', g1, g2, g3, _⟩ := hash_holds hc
      simp only [g1]
      exact ⟨rholds_putO g3 g2 hl, by rw [hnone e]; rfl⟩
    | some l =>
      obtain ⟨t', g1, g2, g3, _⟩ := commitAndHash_holds hH hC hU hF hv (hlive l e)
      simp only [g1]
      exact ⟨rholds_putL hU ho hc hu g3 g2, trivial⟩
  | preCollapseBefore k =>
    simp only [rstep, Two.step, Two.Answer]
    cases e : s.live with
    | none => exact ⟨⟨o, ho, hc, hl⟩, _, rfl, by simp⟩
    | some l =>
      obtain ⟨t', r, g1, g2, g3, g4⟩ := collapse_holds hH (hlive l e) k
      simp only [g1]
      exact ⟨rholds_putL hU ho hc hu (by rw [g3]; exact Ext.refl) g2, r, rfl, g4 rfl⟩
  | collapseBefore k =>
    simp only [rstep, ho, Two.step, Two.Answer]
    obtain ⟨t', r, g1, g2, g3, g4⟩ := collapse_holds hH hc k
    simp only [g1]
    exact ⟨rholds_putO g3 g2 hl, r, rfl, g4 rfl⟩
  | commit =>
    simp only [rstep, RTree.prepareCommit, Two.step, Two.Answer]
    cases e : s.live with
    | none =>
      simp only [ho]
      obtain ⟨t', ok, g1, g2, g3, _⟩ := commit_holds hH hC hU hu hc
      simp only [g1, hnone e]
      refine ⟨⟨t'.core, rfl, g2, ?_⟩, by rw [g3 hF]⟩
      show match s.live with | none => _ | some l => _
      rw [e]
    | some l =>
      obtain ⟨t', ok, g1, g2, g3, _⟩ := commit_holds hH hC hU hv (hlive l e)
      simp only [g1]
      exact ⟨⟨t'.core, rfl, g2, rfl⟩, by rw [g3 hF]⟩
  | get k =>
    simp only [rstep, ho, Two.step, Two.Answer]
    obtain ⟨t', v, g1, g2, g3, g4⟩ := get_holds hH hc k
    simp only [g1]
    refine ⟨rholds_putO g3 g2 hl, ?_⟩
    rcases g4 with g4 | ⟨g4, _⟩
    · rw [g4]
    · cases g4
  | getProof k =>
    simp only [rstep, ho, Two.step, Two.Answer]
    obtain ⟨g1, g2, g3⟩ := proof_holds hH R hc k
    refine ⟨rholds_putO g2 g1 hl, ?_⟩
    simp only [HTree.Answer] at g3
    split
    · rename_i hk
      rw [dif_pos hk] at g3
      obtain ⟨c, g4, g5⟩ := g3
      refine ⟨c, ?_, g5⟩
      simpa using g4
    · rename_i hk
      rw [dif_neg hk] at g3
      simpa using g3
  | rollback =>
    simp only [rstep, Two.step, Two.Answer]
    exact ⟨⟨o, ho, hc, rfl⟩, trivial⟩

theorem Two.seen_pending (w : Two) (ops : List ROp) : w.pending ∈ w.seen ops := by
  cases ops <;> simp [Two.seen]

theorem Two.step_committed (w : Two) (op : ROp) : (w.step op).committed = w.committed ∨ (w.step op).committed = w.pending := by
  cases op with
  | append k v => simp only [Two.step]; split <;> exact .inl rfl
  | commit => exact .inr rfl
  | commitAndHash => exact .inr rfl
  | _ => exact .inl rfl

theorem inputOf_universe (hH : ∀ b, (E.H b).length = 32) {ls : List (List Bytes)} (hf : FairOn E.H (ValOf ls) (InputOf E.H ls)) :
    Universe E (BlocksOn E.H (ValOf ls) (InputOf E.H ls)) := fairOn_universe hH hf

theorem blocksOn_mem {H : Bytes → Bytes} {ls : List (List Bytes)} {l : List Bytes} (h : l ∈ ls) (hn : l.length < 2 ^ 64) (h0 : l ≠ []) :
    BlocksOn H (ValOf ls) (InputOf H ls) 15 l :=
  ⟨h0, by omega, fun _ hv => ⟨l, h, hv⟩, fun _ hx => .inr ⟨l, h, hx⟩⟩

theorem rrun_holds (hH : ∀ b, (E.H b).length = 32) (hC : E.C.Lawful) (hF : ∀ x, E.F x = false) (R : Rtl) {ls : List (List Bytes)}
    (hf : FairOn E.H (ValOf ls) (InputOf E.H ls)) (hn : ∀ l ∈ ls, l.length < 2 ^ 64) : ∀ (ops : List ROp) (s : RTree) (w : Two),
    (∀ l ∈ w.seen ops, l ∈ ls) → w.committed ∈ ls → RHolds E s w →
    RHolds E (rrun E s ops).1 (w.run ops) ∧ w.Answers E R ops (rrun E s ops).2 ∧ (w.run ops).committed ∈ ls ∧
      (w.run ops).pending ∈ ls := by
  intro ops
  induction ops with
  | nil => intro s w hs hm hh; exact ⟨hh, rfl, hm, hs _ (w.seen_pending [])⟩
  | cons op ops ih =>
    intro s w hs hm hh
    have hp : w.pending ∈ ls := hs _ (w.seen_pending _)
    obtain ⟨h1, h2⟩ := rstep_holds hH hC (inputOf_universe hH hf) hF R (hn _ hp) (hn _ hm) (blocksOn_mem hm (hn _ hm))
      (blocksOn_mem hp (hn _ hp)) op hh
    have hm' : (w.step op).committed ∈ ls := by
      rcases w.step_committed op with e | e <;> rw [e] <;> assumption
    obtain ⟨g1, g2, g3⟩ := ih _ _ (fun l hl => hs l (List.mem_cons_of_mem _ hl)) hm' h1
    exact ⟨g1, ⟨h2, g2⟩, g3⟩

end

/-! ### C117 -/

/-- A new structure over an empty tree. -/
def RTree.new (D : HDisk) : RTree := ⟨D, some (0, .nil), none⟩

theorem rholds_new (E : HEnv) (D : HDisk) : RHolds E (.new D) ⟨[], []⟩ := ⟨_, rfl, ⟨rfl, .inl ⟨rfl, rfl⟩⟩, rfl⟩

/-- C117: in every sequence of calls all answers are those of the two lists: `Append` extends the pending list and nothing else,
`Commit` makes it the committed one, `Rollback` drops it.  No write fails, and the digest has no collision on what is hashed. -/
theorem C117_run_partial (E : HEnv) (hH : ∀ b, (E.H b).length = 32) (hC : E.C.Lawful) (hF : ∀ x, E.F x = false) (R : Rtl) (D : HDisk)
    (ops : List ROp) (hn : ∀ l ∈ Two.seen ⟨[], []⟩ ops, l.length < 2 ^ 64)
    (hf : FairOn E.H (ValOf (Two.seen ⟨[], []⟩ ops)) (InputOf E.H (Two.seen ⟨[], []⟩ ops))) :
    Two.Answers E R ⟨[], []⟩ ops (rrun E (.new D) ops).2 :=
  (rrun_holds hH hC hF R hf hn ops _ _ (fun _ h => h) (Two.seen_pending _ _) (rholds_new E D)).2.1

/-- C117: after `Commit`, a tree opened in the storage at the root hash of the values has them all. -/
theorem C117_durable_partial (E : HEnv) (hH : ∀ b, (E.H b).length = 32) (hC : E.C.Lawful) (hF : ∀ x, E.F x = false) (D : HDisk)
    (ops : List ROp) (hn : ∀ l ∈ Two.seen ⟨[], []⟩ ops, l.length < 2 ^ 64)
    (hf : FairOn E.H (ValOf (Two.seen ⟨[], []⟩ ops)) (InputOf E.H (Two.seen ⟨[], []⟩ ops))) (check : Bool) :
    let vals := (Two.run ⟨[], []⟩ ops).pending
    ∃ t, openTree E (rstep E (rrun E (.new D) ops).1 .commit).1.D (rootOf E.H vals) check = some t ∧
      t.expecting.toNat = vals.length ∧ ∀ k, (t.get E k).2 = vals[k.toNat]? := by
  intro vals
  obtain ⟨⟨o, ho, hc, hl⟩, _, hm, hp⟩ := rrun_holds hH hC hF toyRtl hf hn ops _ _ (fun _ h => h) (Two.seen_pending _ _) (rholds_new E D)
  have hU := inputOf_universe hH hf
  have key : ∃ t, (rstep E (rrun E (.new D) ops).1 .commit).1.D = t.D ∧ Holds E false t vals ∧
      (vals ≠ [] → Stored E t.D false 15 vals) := by
    simp only [rstep, RTree.prepareCommit]
    cases e : (rrun E (.new D) ops).1.live with
    | none =>
      rw [e] at hl
      simp only [ho]
      obtain ⟨t', ok, g1, g2, g3, g4⟩ := commit_holds hH hC hU (blocksOn_mem hm (hn _ hm)) hc
      simp only [g1]
      have hv : vals = (Two.run ⟨[], []⟩ ops).committed := hl
      rw [hv]
      exact ⟨t', rfl, g2, g4 (g3 hF)⟩
    | some l =>
      rw [e] at hl
      obtain ⟨t', ok, g1, g2, g3, g4⟩ := commit_holds hH hC hU (blocksOn_mem hp (hn _ hp)) hl
      simp only [g1]
      exact ⟨t', rfl, g2, g4 (g3 hF)⟩
  obtain ⟨t, e1, e2, e3⟩ := key
  rw [e1]
  have hlen : vals.length < 2 ^ 64 := hn _ hp
  have done : ∀ t3 : Tree, Holds E false t3 vals → t3.expecting.toNat = vals.length ∧ ∀ k, (t3.get E k).2 = vals[k.toNat]? := by
    intro t3 h3
    refine ⟨by rw [h3.1, UInt64.toNat_ofNat_of_lt' (by simpa using hlen)], fun k => ?_⟩
    obtain ⟨t', v, g1, _, _, g4⟩ := get_holds hH h3 k
    rw [g1]
    rcases g4 with g4 | ⟨g4, _⟩
    · exact g4
    · cases g4
  by_cases h0 : vals = []
  · refine ⟨⟨0, .nil, t.D⟩, ?_, done _ ⟨by rw [h0]; rfl, .inl ⟨h0, rfl⟩⟩⟩
    unfold openTree rootOf
    rw [if_pos (.inr (by rw [h0, hspec_nil]; rfl))]
  · obtain ⟨x, hx⟩ := hspec_some (H := E.H) (k := 64) h0
    have hne : x ≠ nilHash E.H := fun e =>
      hU.notNil (blocksOn_mem hp (hn _ hp) h0) (hx.trans (congrArg some e))
    obtain ⟨t3, f1, _, f3⟩ := open_holds hH check h0 (by omega) (e3 h0) hx hne
    refine ⟨t3, ?_, done _ f3⟩
    unfold rootOf
    rw [hx, Option.getD_some, f1]

/-- C97: whichever writes fail, a root hash that `CommitAndHash` returns can be opened, and the tree there has all values. -/
theorem C97_commitAndHash (E : HEnv) (hH : ∀ b, (E.H b).length = 32) (hC : E.C.Lawful) (D : HDisk) (ops : List Op)
    (hn : (specRun [] ops).length < 2 ^ 64) (hf : Fair E.H (specRun [] ops)) (r : Bytes)
    (hr : ((run E (emptyTree D) ops).1.commitAndHash E).2 = some r) (check : Bool) :
    ∃ t, openTree E ((run E (emptyTree D) ops).1.commitAndHash E).1.D r check = some t ∧
      t.expecting.toNat = (specRun [] ops).length ∧ ∀ k, (t.get E k).2 = (specRun [] ops)[k.toNat]? := by
  have hh := (run_holds hH toyRtl _ ops (emptyTree D) [] rfl hn (fun _ => ⟨hC, hf⟩) (holds_empty E false D)).1
  generalize (run E (emptyTree D) ops).1 = t0 at hh hr ⊢
  generalize specRun [] ops = vals at hn hf hh ⊢
  obtain ⟨t', ok, g1, g2, _, g4⟩ := commit_holds hH hC (fair_universe hH hf)
    (fun h0 => blocks_prefix h0 (by omega) (List.prefix_refl _)) hh
  obtain ⟨t2, f1, f2, f3, _⟩ := hash_holds g2
  have hca : t0.commitAndHash E = if ok then t'.hash E else (t', none) := by rw [Tree.commitAndHash, g1]
  cases ok with
  | false => rw [hca] at hr; cases hr
  | true =>
    rw [if_pos rfl, f1] at hca
    rw [hca] at hr ⊢
    simp only [Option.some.injEq] at hr
    have done : ∀ t3 : Tree, Holds E false t3 vals → t3.expecting.toNat = vals.length ∧ ∀ k, (t3.get E k).2 = vals[k.toNat]? := by
      intro t3 h3
      refine ⟨by rw [h3.1, UInt64.toNat_ofNat_of_lt' (by simpa using hn)], fun k => ?_⟩
      obtain ⟨t', v, e1, _, _, e4⟩ := get_holds hH h3 k
      rw [e1]
      rcases e4 with e4 | ⟨e4, _⟩
      · exact e4
      · cases e4
    by_cases h0 : vals = []
    · refine ⟨⟨0, .nil, t2.D⟩, ?_, done _ ⟨by rw [h0]; rfl, .inl ⟨h0, rfl⟩⟩⟩
      unfold openTree
      rw [if_pos (.inr (by rw [← hr, h0, hspec_nil]; rfl))]
    · obtain ⟨x, hx⟩ := hspec_some (H := E.H) (k := 64) h0
      have hne : x ≠ nilHash E.H := fun e =>
        (fair_universe hH hf).notNil (blocks_prefix h0 (by omega) (List.prefix_refl _)) (hx.trans (congrArg some e))
      obtain ⟨t3, k1, _, k3⟩ := open_holds hH check h0 (by omega) (g4 rfl h0) hx hne
      refine ⟨t3, ?_, done _ k3⟩
      rw [← hr, hx, Option.getD_some, f3, k1]

/-! ### Examples -/

theorem FairOn.mono {H : Bytes → Bytes} {V V' I I' : Bytes → Prop} (h : FairOn H V I) (hV : ∀ v, V' v → V v) (hI : ∀ x, I' x → I x)
    (hn : I' []) : FairOn H V' I' :=
  ⟨fun v hv => h.len v (hV v hv), fun x y hx hy => h.inj x y (hI x hx) (hI y hy), fun v hv x hx => h.fresh v (hV v hv) x (hI x hx), hn⟩

/-- A value is committed, another one is appended, read in vain and rolled back, then appended again and committed. -/
def demoCalls : List ROp := [.append 0 (toyLeaf 100), .commit, .append 1 (toyLeaf 101), .get 1, .rollback, .preHash,
  .append 1 (toyLeaf 101), .commitAndHash, .get 1]

theorem demo_seen : ∀ l ∈ Two.seen ⟨[], []⟩ demoCalls, ∃ n, l = fairVals.take n := by
  have h : Two.seen ⟨[], []⟩ demoCalls = [0, 1, 1, 2, 2, 1, 1, 2, 2, 2].map fairVals.take := by decide +kernel
  intro l hl
  rw [h, List.mem_map] at hl
  obtain ⟨n, _, e⟩ := hl
  exact ⟨n, e.symm⟩

/-- The assumptions of C117 hold for these calls. -/
theorem demo_fair : FairOn toyH (ValOf (Two.seen ⟨[], []⟩ demoCalls)) (InputOf toyH (Two.seen ⟨[], []⟩ demoCalls)) := by
  refine fair_vals.on.mono ?_ ?_ (.inl rfl)
  · rintro v ⟨l, hl, hv⟩
    obtain ⟨n, rfl⟩ := demo_seen l hl
    exact List.mem_of_mem_take hv
  · rintro x (rfl | ⟨l, hl, hx⟩)
    · exact .inl rfl
    · obtain ⟨n, rfl⟩ := demo_seen l hl
      exact .inr ⟨n, hx⟩

example : Two.Answers toyHE toyRtl ⟨[], []⟩ demoCalls (rrun toyHE (.new noDisk) demoCalls).2 :=
  C117_run_partial toyHE toyHE_len toyC_lawful (fun _ => rfl) toyRtl noDisk demoCalls
    (fun l hl => by obtain ⟨n, rfl⟩ := demo_seen l hl; have : (fairVals.take n).length ≤ 2 := by simp [fairVals]
                    omega) demo_fair

example : ((rrun toyHE (.new noDisk) demoCalls).2.map fun o => match o with | .value v => v | _ => none) =
    [none, none, none, none, none, none, none, none, some (toyLeaf 101)] := by decide +kernel

/-! ### Where the claim fails -/

/-- A storage that does not accept writes. -/
def fullHE : HEnv := { toyHE with F := fun _ => true }

/-- C117 fails if a write fails: `Clone` drops the error and gives a nil pointer.  `Append` succeeds, but after `Rollback` there
is no tree, and `Get` of the value appended before panics; without the second `Append` it is answered. -/
theorem C117_failedWrite_refuted :
    ((rrun fullHE (.new noDisk) [.append 0 (toyLeaf 100), .commit, .append 1 (toyLeaf 101), .rollback, .get 0]).2.map fun o =>
      match o with | .done false => 0 | .done true => 1 | .panic => 2 | _ => 3) = [1, 0, 1, 1, 2] ∧
    (rrun fullHE (.new noDisk) [.append 0 (toyLeaf 100), .commit, .append 1 (toyLeaf 101), .rollback]).1.origin.isNone = true ∧
    ((rrun fullHE (.new noDisk) [.append 0 (toyLeaf 100), .commit, .get 0]).2.map fun o =>
      match o with | .value v => v | _ => none) = [none, none, some (toyLeaf 100)] := by
  decide +kernel

/-- A storage that accepts writes, and one that does not. -/
example : ((run toyHE (emptyTree noDisk) (appends 0 fairVals)).1.commitAndHash toyHE).2.isSome ∧
    ((run fullHE (emptyTree noDisk) (appends 0 fairVals)).1.commitAndHash fullHE).2 = none := by decide +kernel

end Verif.HTree

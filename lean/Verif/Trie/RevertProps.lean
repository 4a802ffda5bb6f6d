import Verif.Trie.Revert
import Verif.Trie.StoreProps

/-!
# Properties C16 and C17: the revertable trie
-/

namespace Verif.Trie.Store
open Verif Verif.Merkle Verif.Trie

variable {V : Type}

/-! ### Vocabulary of the statements -/

/-- One call. -/
inductive ROp (V : Type) where
  | get (key : Bytes)
  | getLive (key : Bytes)
  | put (key : Bytes) (x : V)
  | del (key : Bytes)
  | hash
  | preHash
  | commit
  | commitHash
  | preCommit
  | rollback
  | check
  | revert (i : Nat) (root : Bytes)

/-- What a call returns. -/
inductive ROut (V : Type) where
  | value (v : Option V)
  | changed (b : Bool)
  | deleted (b : Bool) (old : Option V)
  | root (h : Bytes)
  | point (i : Nat) (h : Bytes)
  | done (ok : Bool)
  | panic
deriving DecidableEq

/-- The calls on a revertable trie. -/
def rstep (E : Env V) (F : Faults) (L : Limits) (r : Rev V) : ROp V → Rev V × ROut V
  | .get k => let x := r.get E k; (x.1, .value x.2)
  | .getLive k => let x := r.getLive E k; (x.1, .value x.2)
  | .put k x => let y := r.put E F L k x; (y.1, .changed y.2)
  | .del k =>
    match r.del E F L k with
    | none => (r, .panic)
    | some y => (y.1, .deleted y.2.1 y.2.2)
  | .hash => let x := r.hash E; (x.1, .root x.2)
  | .preHash => let x := r.preHash E; (x.1, .root x.2)
  | .commit => let x := r.commit E F L; (x.1, .done x.2)
  | .commitHash =>
    let x := r.commitHash E F L
    (x.1, match x.2 with | none => .done false | some h => .root h)
  | .preCommit =>
    let x := r.preCommit E F L
    (x.1, match x.2 with | none => .done false | some h => .root h)
  | .rollback => (r.rollback, .done true)
  | .check =>
    let x := r.check E F L
    (x.1, match x.2 with | none => .done false | some p => .point p.1 p.2)
  | .revert i root => let x := r.revertTo i root; (x.1, .done x.2)

/-- The answers to a sequence of calls. -/
def routs (E : Env V) (F : Faults) (L : Limits) : Rev V → List (ROp V) → List (ROut V)
  | _, [] => []
  | r, op :: ops => (rstep E F L r op).2 :: routs E F L (rstep E F L r op).1 ops

/-- The state after a sequence of calls. -/
def rrun (E : Env V) (F : Faults) (L : Limits) (r : Rev V) (ops : List (ROp V)) : Rev V :=
  ops.foldl (fun r op => (rstep E F L r op).1) r

/-- What is intended: two separate tries in memory, and copies of the live one made at the check points. -/
structure Two (V : Type) where
  committed : MTrie V
  live : MTrie V
  pts : List (MTrie V)

/-- What the calls are intended to do. -/
def ideal (E : Env V) (s : Two V) : ROp V → Two V × ROut V
  | .get k => (s, .value (s.committed.get k))
  | .getLive k => (s, .value (s.live.get k))
  | .put k x => ({ s with live := (s.live.put k x).1 }, .changed (s.live.put k x).2)
  | .del k => ({ s with live := (s.live.del k).1 }, .deleted (s.live.del k).2.1 (s.live.del k).2.2)
  | .hash => (s, .root (s.committed.hash E.H E.R E.vh))
  | .preHash => (s, .root (s.live.hash E.H E.R E.vh))
  | .commit => (⟨s.live, s.live, []⟩, .done true)
  | .commitHash => (⟨s.live, s.live, []⟩, .root (s.live.hash E.H E.R E.vh))
  | .preCommit => (s, .root (s.live.hash E.H E.R E.vh))
  | .rollback => (⟨s.committed, s.committed, []⟩, .done true)
  | .check => ({ s with pts := s.pts ++ [s.live] }, .point s.pts.length (s.live.hash E.H E.R E.vh))
  | .revert i root =>
    match s.pts[i]? with
    | none => (s, .done false)
    | some m => if root = m.hash E.H E.R E.vh then ({ s with live := m, pts := s.pts.take i }, .done true) else (s, .done false)

/-- The intended answers. -/
def iouts (E : Env V) : Two V → List (ROp V) → List (ROut V)
  | _, [] => []
  | s, op :: ops => (ideal E s op).2 :: iouts E (ideal E s op).1 ops

/-- The intended state after a sequence of calls. -/
def irun (E : Env V) (s : Two V) (ops : List (ROp V)) : Two V := ops.foldl (fun s op => (ideal E s op).1) s

/-- The trees that the two tries go through. -/
def ralong (E : Env V) (s : Two V) (ops : List (ROp V)) : Node V → Prop := fun a =>
  ∃ pre, pre <+: ops ∧ (a = (irun E s pre).committed.root ∨ a = (irun E s pre).live.root)

/-- A call of `RevertTo` gives a 32-byte root, and does not ask for check point 0 unless that was taken without changes. -/
def Fine (s : Two V) : ROp V → Prop
  | .revert i root => root.length = 32 ∧ (i = 0 → ∀ m, s.pts[0]? = some m → m.root = s.committed.root)
  | _ => True

/-- All calls of `RevertTo` are of that kind. -/
def FineOps (E : Env V) : Two V → List (ROp V) → Prop
  | _, [] => True
  | s, op :: ops => Fine s op ∧ FineOps E (ideal E s op).1 ops

/-! ### Simulation -/

variable {E : Env V}

/-- A trie can be opened from the root hash. -/
def Openable (E : Env V) (D : Disk) (a : Node V) : Prop := ∀ p v c, a = .mk p v c → isEmpty p v c = false → Stored E D a

/-- The tries of a revertable trie stand for the two tries in memory. -/
structure RInv (E : Env V) (T : Node V → Prop) (r : Rev V) (s : Two V) : Prop where
  disk : r.D.ok
  origin : Rep E r.D r.origin.root s.committed.root
  clean : r.live = none → s.live.root = s.committed.root ∧ ∀ m ∈ s.pts, m.root = s.committed.root
  live : ∀ t, r.live = some t → Rep E r.D t.root s.live.root ∧ ∀ m ∈ s.pts, Openable E r.D m.root
  chk : r.chkpts = s.pts.map fun m => nh E m.root
  wfc : WFRoot s.committed.root
  wfl : WFRoot s.live.root
  wfp : ∀ m ∈ s.pts, WFRoot m.root
  tc : T s.committed.root
  tl : T s.live.root
  tp : ∀ m ∈ s.pts, T m.root

theorem toHash_id {b : Bytes} (h : b.length = 32) : toHash b = b := by
  simp [toHash, h]

theorem openable_ext {T : Node V → Prop} {D D' : Disk} (h : Ext E (nodesOf T) D D') {a : Node V} (hw : WFRoot a) (ht : T a)
    (ho : Openable E D a) : Openable E D' a :=
  fun p v c ha he => h a ⟨hw.isSome, _, ht, Sub.refl _⟩ (ho p v c ha he)

theorem checkLive_spec (hE : E.Lawful) {T : Node V → Prop} (hA : Apart E T) {F : Faults} (hF : Harmless E (nodesOf T) F)
    (L : Limits) {r : Rev V} {s : Two V} (h : RInv E T r s) :
    RInv E T (r.checkLive E F L).1 s ∧ (r.checkLive E F L).1.live = some (r.checkLive E F L).2 := by
  rw [Rev.checkLive]
  cases hl : r.live with
  | some t => exact ⟨h, hl⟩
  | none =>
    refine ⟨?_, rfl⟩
    obtain ⟨h1, h2, h3, h4, h5⟩ := commit_step hE (hA.ghost hE) hF L h.disk h.origin h.wfc ⟨h.wfc.isSome, _, h.tc, Sub.refl _⟩
    obtain ⟨h6, h7⟩ := hash_step h4 h.wfc
    obtain ⟨hc1, hc2⟩ := h.clean hl
    refine ⟨h2, ?_, by simp, ?_, h.chk, h.wfc, h.wfl, h.wfp, h.tc, h.tl, h.tp⟩
    · show Rep E _ (newNode (some (BTrie.hash E _).2) _) _
      rw [h6]
      exact rep_open h.wfc h5 _
    · intro t ht
      cases ht
      rw [hc1]
      exact ⟨h7, fun m hm => by rw [hc2 m hm]; exact h5⟩

theorem prepare_spec {T : Node V → Prop} {r : Rev V} {s : Two V} (h : RInv E T r s) :
    r.prepare.D.ok ∧ Rep E r.prepare.D r.prepare.origin.root s.live.root ∧ r.prepare.live = none ∧ r.prepare.chkpts = [] := by
  rw [Rev.prepare]
  cases hl : r.live with
  | none => exact ⟨h.disk, by rw [(h.clean hl).1]; exact h.origin, rfl, rfl⟩
  | some t => exact ⟨h.disk, (h.live t hl).1, rfl, rfl⟩

theorem preCommit_spec (hE : E.Lawful) {T : Node V → Prop} (hA : Apart E T) {F : Faults} (hF : Harmless E (nodesOf T) F)
    (L : Limits) {r : Rev V} {s : Two V} (h : RInv E T r s) :
    (r.preCommit E F L).2 = some (nh E s.live.root) ∧ RInv E T (r.preCommit E F L).1 s ∧
      ∀ t, (r.preCommit E F L).1.live = some t → Openable E (r.preCommit E F L).1.D s.live.root := by
  have hG := hA.ghost hE
  have hgc : nodesOf T s.committed.root := ⟨h.wfc.isSome, _, h.tc, Sub.refl _⟩
  have hgl : nodesOf T s.live.root := ⟨h.wfl.isSome, _, h.tl, Sub.refl _⟩
  rw [Rev.preCommit]
  cases hl : r.live with
  | none =>
    obtain ⟨h1, h2⟩ := hash_step h.origin h.wfc
    refine ⟨?_, ⟨h.disk, h2, h.clean, h.live, h.chk, h.wfc, h.wfl, h.wfp, h.tc, h.tl, h.tp⟩, ?_⟩
    · show some _ = some (nh E s.live.root)
      rw [(h.clean hl).1, ← h1]
      rfl
    · intro t ht
      exact absurd (hl.symm.trans ht) (by simp)
  | some t =>
    obtain ⟨hr, ho⟩ := h.live t hl
    obtain ⟨h1, h2, h3, h4, h5⟩ := commit_step hE hG hF L h.disk hr h.wfl hgl
    obtain ⟨h6, h7⟩ := hash_step h4 h.wfl
    simp only [h1, if_true]
    refine ⟨congrArg some h6, ⟨h2, rep_ext hG h3 _ (fun _ => hgc) h.origin, by simp, ?_, h.chk, h.wfc, h.wfl, h.wfp, h.tc, h.tl, h.tp⟩,
      fun _ _ => h5⟩
    intro t' ht'
    cases ht'
    exact ⟨h7, fun m hm => openable_ext h3 (h.wfp m hm) (h.tp m hm) (ho m hm)⟩

theorem rstep_spec (hE : E.Lawful) {T : Node V → Prop} (hA : Apart E T) {F : Faults} (hF : Harmless E (nodesOf T) F)
    (L : Limits) {r : Rev V} {s : Two V} (h : RInv E T r s) (op : ROp V) (hop : Fine s op) (hT : T (ideal E s op).1.live.root) :
    (rstep E F L r op).2 = (ideal E s op).2 ∧ RInv E T (rstep E F L r op).1 (ideal E s op).1 := by
  have hG := hA.ghost hE
  have hgc : nodesOf T s.committed.root := ⟨h.wfc.isSome, _, h.tc, Sub.refl _⟩
  have hgl : nodesOf T s.live.root := ⟨h.wfl.isSome, _, h.tl, Sub.refl _⟩
  cases op with
  | get k =>
    obtain ⟨h1, h2⟩ := get_step hE h.origin h.wfc k
    exact ⟨by rw [rstep, Rev.get, h1]; rfl, ⟨h.disk, h2, h.clean, h.live, h.chk, h.wfc, h.wfl, h.wfp, h.tc, h.tl, h.tp⟩⟩
  | getLive k =>
    rw [rstep, Rev.getLive]
    cases hl : r.live with
    | none =>
      obtain ⟨h1, h2⟩ := get_step hE h.origin h.wfc k
      refine ⟨?_, ⟨h.disk, h2, h.clean, h.live, h.chk, h.wfc, h.wfl, h.wfp, h.tc, h.tl, h.tp⟩⟩
      show ROut.value _ = ROut.value (get s.live.root _)
      rw [(h.clean hl).1, ← h1]
      rfl
    | some t =>
      obtain ⟨h1, h2⟩ := get_step hE (h.live t hl).1 h.wfl k
      refine ⟨congrArg ROut.value h1, ⟨h.disk, h.origin, by simp, ?_, h.chk, h.wfc, h.wfl, h.wfp, h.tc, h.tl, h.tp⟩⟩
      intro t' ht'
      cases ht'
      exact ⟨h2, (h.live t hl).2⟩
  | put k x =>
    obtain ⟨hc, hl⟩ := checkLive_spec hE hA hF L h
    obtain ⟨hr, ho⟩ := hc.live _ hl
    obtain ⟨h1, -, h2⟩ := put_step hE hr hc.wfl k x
    refine ⟨congrArg ROut.changed h1, ⟨hc.disk, hc.origin, by simp [rstep, Rev.put], ?_, hc.chk, hc.wfc, WFRoot_insert hc.wfl _ _, hc.wfp, hc.tc, hT, hc.tp⟩⟩
    intro t' ht'
    cases ht'
    exact ⟨h2, ho⟩
  | del k =>
    obtain ⟨hc, hl⟩ := checkLive_spec hE hA hF L h
    obtain ⟨hr, ho⟩ := hc.live _ hl
    obtain ⟨t', h1, -, -, h2⟩ := del_step hE hr hc.wfl k
    have hstep : rstep E F L r (.del k) = ({ (r.checkLive E F L).1 with live := some t' },
        .deleted (delete s.live.root (keyToPrefix k)).changed (delete s.live.root (keyToPrefix k)).old) := by
      rw [rstep, Rev.del, h1]
      rfl
    rw [hstep]
    refine ⟨rfl, ⟨hc.disk, hc.origin, by simp, ?_, hc.chk, hc.wfc, (delete_root hc.wfl _).1, hc.wfp, hc.tc, hT, hc.tp⟩⟩
    intro t'' ht''
    cases ht''
    exact ⟨h2, ho⟩
  | hash =>
    obtain ⟨h1, h2⟩ := hash_step h.origin h.wfc
    exact ⟨congrArg ROut.root h1, ⟨h.disk, h2, h.clean, h.live, h.chk, h.wfc, h.wfl, h.wfp, h.tc, h.tl, h.tp⟩⟩
  | preHash =>
    rw [rstep, Rev.preHash]
    cases hl : r.live with
    | none =>
      obtain ⟨h1, h2⟩ := hash_step h.origin h.wfc
      refine ⟨?_, ⟨h.disk, h2, h.clean, h.live, h.chk, h.wfc, h.wfl, h.wfp, h.tc, h.tl, h.tp⟩⟩
      show ROut.root _ = ROut.root (nh E s.live.root)
      rw [(h.clean hl).1, ← h1]
      rfl
    | some t =>
      obtain ⟨h1, h2⟩ := hash_step (h.live t hl).1 h.wfl
      refine ⟨congrArg ROut.root h1, ⟨h.disk, h.origin, by simp, ?_, h.chk, h.wfc, h.wfl, h.wfp, h.tc, h.tl, h.tp⟩⟩
      intro t' ht'
      cases ht'
      exact ⟨h2, (h.live t hl).2⟩
  | commit =>
    obtain ⟨hd, ho, hk⟩ := prepare_spec h
    obtain ⟨h1, h2, h3, h4, h5⟩ := commit_step hE hG hF L hd ho h.wfl hgl
    refine ⟨congrArg ROut.done h1, ⟨h2, h4, fun _ => ⟨rfl, by simp [ideal]⟩, ?_, ?_, h.wfl, h.wfl, by simp [ideal], h.tl, h.tl, by simp [ideal]⟩⟩
    · intro t ht
      exact absurd (hk.1.symm.trans ht) (by simp)
    · exact hk.2
  | commitHash =>
    obtain ⟨hd, ho, hk⟩ := prepare_spec h
    obtain ⟨h1, h2, h3, h4, h5⟩ := commit_step hE hG hF L hd ho h.wfl hgl
    obtain ⟨h6, h7⟩ := hash_step h4 h.wfl
    have hc : (r.commit E F L).2 = true := h1
    have hs : rstep E F L r .commitHash = (((r.commit E F L).1.hash E).1, .root ((r.commit E F L).1.hash E).2) := by
      rw [rstep, Rev.commitHash]
      simp only [hc, if_true]
    rw [hs]
    refine ⟨congrArg ROut.root h6, ⟨h2, h7, fun _ => ⟨rfl, by simp [ideal]⟩, ?_, ?_, h.wfl, h.wfl, by simp [ideal], h.tl, h.tl, by simp [ideal]⟩⟩
    · intro t ht
      exact absurd (hk.1.symm.trans ht) (by simp)
    · exact hk.2
  | preCommit =>
    obtain ⟨h1, h2, -⟩ := preCommit_spec hE hA hF L h
    rw [rstep]
    simp only [h1]
    exact ⟨rfl, h2⟩
  | rollback =>
    exact ⟨rfl, ⟨h.disk, h.origin, fun _ => ⟨rfl, by simp [ideal]⟩, by simp [rstep, Rev.rollback], rfl, h.wfc, h.wfc,
      by simp [ideal], h.tc, h.tc, by simp [ideal]⟩⟩
  | check =>
    obtain ⟨h1, h2, h3⟩ := preCommit_spec hE hA hF L h
    have hs : rstep E F L r .check = ({ (r.preCommit E F L).1 with chkpts := (r.preCommit E F L).1.chkpts ++ [toHash (nh E s.live.root)] },
        .point (r.preCommit E F L).1.chkpts.length (nh E s.live.root)) := by
      rw [rstep, Rev.check]
      simp only [h1]
    rw [hs]
    refine ⟨?_, ⟨h2.disk, h2.origin, ?_, ?_, ?_, h2.wfc, h2.wfl, ?_, h2.tc, h2.tl, ?_⟩⟩
    · show ROut.point _ _ = ROut.point _ _
      rw [h2.chk, List.length_map]
      rfl
    · intro hl
      refine ⟨(h2.clean hl).1, fun m hm => ?_⟩
      rcases List.mem_append.1 hm with hm | hm
      · exact (h2.clean hl).2 m hm
      · rw [List.mem_singleton.1 hm]; exact (h2.clean hl).1
    · intro t hl
      refine ⟨(h2.live t hl).1, fun m hm => ?_⟩
      rcases List.mem_append.1 hm with hm | hm
      · exact (h2.live t hl).2 m hm
      · rw [List.mem_singleton.1 hm]; exact h3 t hl
    · show _ ++ _ = List.map _ (_ ++ _)
      rw [h2.chk, toHash_id (nh_len hE _), List.map_append]
      rfl
    · intro m hm
      rcases List.mem_append.1 hm with hm | hm
      · exact h2.wfp m hm
      · rw [List.mem_singleton.1 hm]; exact h2.wfl
    · intro m hm
      rcases List.mem_append.1 hm with hm | hm
      · exact h2.tp m hm
      · rw [List.mem_singleton.1 hm]; exact h2.tl
  | revert i root =>
    obtain ⟨hlen, hzero⟩ := hop
    rw [rstep, ideal]
    rw [Rev.revertTo, if_neg (by omega), h.chk]
    simp only [List.getElem?_map]
    cases hm : s.pts[i]? with
    | none => exact ⟨rfl, h⟩
    | some m =>
      simp only [Option.map_some]
      have hmem : m ∈ s.pts := List.mem_of_getElem? hm
      by_cases heq : root = nh E m.root
      · rw [if_neg (by rw [toHash_id hlen]; simpa using heq), if_pos (show root = MTrie.hash E.H E.R E.vh m from heq)]
        by_cases h0 : i = 0
        · subst h0
          rw [if_pos rfl]
          have hroot := hzero rfl m hm
          refine ⟨rfl, ⟨h.disk, h.origin, fun _ => ⟨hroot, by simp⟩, by simp, by simp, h.wfc, h.wfp m hmem, by simp, h.tc, h.tp m hmem, by simp⟩⟩
        · rw [if_neg h0]
          refine ⟨rfl, ⟨h.disk, h.origin, ?_, ?_, ?_, h.wfc, h.wfp m hmem, fun x hx => h.wfp x (List.mem_of_mem_take hx), h.tc, h.tp m hmem,
            fun x hx => h.tp x (List.mem_of_mem_take hx)⟩⟩
          · intro hl
            have hl' : r.live = none := by simpa using hl
            exact ⟨(h.clean hl').2 m hmem, fun x hx => (h.clean hl').2 x (List.mem_of_mem_take hx)⟩
          · intro t hl
            obtain ⟨t', ht', rfl⟩ : ∃ t', r.live = some t' ∧ inherit root = t := by simpa using hl
            refine ⟨?_, fun x hx => (h.live t' ht').2 x (List.mem_of_mem_take hx)⟩
            rw [heq]
            exact rep_open (h.wfp m hmem) ((h.live t' ht').2 m hmem) _
          · show List.take i _ = List.map _ (List.take i _)
            rw [List.map_take]
      · rw [if_pos (by rw [toHash_id hlen]; exact heq), if_neg (show ¬ root = MTrie.hash E.H E.R E.vh m from heq)]
        exact ⟨rfl, h⟩

theorem routs_spec (hE : E.Lawful) {T : Node V → Prop} (hA : Apart E T) {F : Faults} (hF : Harmless E (nodesOf T) F)
    (L : Limits) (ops : List (ROp V)) : ∀ (r : Rev V) (s : Two V), RInv E T r s → FineOps E s ops →
    (∀ pre, pre <+: ops → T (irun E s pre).live.root) →
    routs E F L r ops = iouts E s ops ∧ RInv E T (rrun E F L r ops) (irun E s ops) := by
  induction ops with
  | nil => intro r s h _ _; exact ⟨rfl, h⟩
  | cons op ops ih =>
    intro r s h hf hT
    obtain ⟨h1, h2⟩ := rstep_spec hE hA hF L h op hf.1 (hT [op] (by simp))
    obtain ⟨h3, h4⟩ := ih _ _ h2 hf.2 (fun pre hp => hT (op :: pre) (by simpa using hp))
    exact ⟨by rw [routs, iouts, h1, h3], h4⟩

/-- The trees of a session `ops0` on a trie, and of the calls `ops` on a revertable trie made of it. -/
def trees (E : Env V) (ops0 : List (SOp V)) (ops : List (ROp V)) : Node V → Prop := fun a =>
  along ops0 a ∨ ralong E ⟨newTrie.run (ops0.filterMap SOp.call), newTrie.run (ops0.filterMap SOp.call), []⟩ ops a

/-- The revertable trie made of the trie of a session, which may hold changes that are not committed. -/
def revOf (s : Sess V) : Rev V := ⟨s.t, none, [], s.D⟩

/-- The two tries in memory that it begins with. -/
def twoOf (ops0 : List (SOp V)) : Two V :=
  ⟨newTrie.run (ops0.filterMap SOp.call), newTrie.run (ops0.filterMap SOp.call), []⟩

theorem revOf_inv (hE : E.Lawful) (ops0 : List (SOp V)) {T : Node V → Prop} (hT : ∀ a, along ops0 a → T a) (hA : Apart E T)
    {F : Faults} (hF : Harmless E (nodesOf T) F) {D : Disk} (hD : D.ok) :
    RInv E T (revOf (srun E F ⟨openTrie none, D⟩ ops0)) (twoOf ops0) := by
  have hs := (outs_spec hE hA hF ops0 [] ⟨openTrie none, D⟩ ⟨hD, rep_openNil⟩ (fun pre hp => hT _ ⟨pre, hp, rfl⟩)).2
  have ht : T (newTrie.run (ops0.filterMap SOp.call)).root := hT _ ⟨ops0, List.prefix_refl _, rfl⟩
  exact ⟨hs.disk, hs.rep, fun _ => ⟨rfl, by simp [twoOf]⟩, by simp [revOf], rfl, wf_run _, wf_run _, by simp [twoOf], ht, ht, by simp [twoOf]⟩

/-- Not a call of `RevertTo`. -/
def ROp.plain : ROp V → Bool
  | .revert _ _ => false
  | _ => true

theorem fine_plain (ops : List (ROp V)) (h : ∀ op ∈ ops, op.plain = true) : ∀ s : Two V, FineOps E s ops := by
  induction ops with
  | nil => intro s; trivial
  | cons op ops ih =>
    intro s
    refine ⟨?_, ih (fun o ho => h o (List.mem_cons_of_mem _ ho)) _⟩
    have := h op List.mem_cons_self
    cases op <;> trivial

theorem ralong_live {s : Two V} {ops pre : List (ROp V)} (h : pre <+: ops) : ralong E s ops (irun E s pre).live.root :=
  ⟨pre, h, Or.inr rfl⟩

/-! ### C16 -/

/-- **C16.** Whatever the keys and whatever the sequence of calls other than `RevertTo`, the revertable trie made of any
trie answers as two separate tries in memory: `Get` and `HashValue` by the committed one; `GetLive`, `Put`, `Delete`,
`PreHashValue`, `PreCommit` and `CheckPoint` by the live one; `Rollback` copies the committed one to the live one; `Commit`
copies the live one to the committed one. -/
theorem C16_two_tries (hE : E.Lawful) (ops0 : List (SOp V)) (ops : List (ROp V)) (hp : ∀ op ∈ ops, op.plain = true)
    (hA : Apart E (trees E ops0 ops)) (L : Limits) (D : Disk) (hD : D.ok) :
    routs E noFaults L (revOf (srun E noFaults ⟨openTrie none, D⟩ ops0)) ops = iouts E (twoOf ops0) ops :=
  (routs_spec hE hA (noFaults_harmless E _) L ops _ _ (revOf_inv hE ops0 (fun _ h => Or.inl h) hA (noFaults_harmless E _) hD)
    (fine_plain ops hp _) (fun _ h => Or.inr (ralong_live h))).1

/-- The two maps a revertable trie stands for. -/
structure Maps (V : Type) where
  committed : Bytes → Option V
  live : Bytes → Option V

/-- What a call does to them. -/
def Maps.step (m : Maps V) : ROp V → Maps V
  | .put k x => ⟨m.committed, fun k' => if k' = k then some x else m.live k'⟩
  | .del k => ⟨m.committed, fun k' => if k' = k then none else m.live k'⟩
  | .commit => ⟨m.live, m.live⟩
  | .commitHash => ⟨m.live, m.live⟩
  | .rollback => ⟨m.committed, m.committed⟩
  | _ => m

/-- The key a call addresses. -/
def ROp.key : ROp V → Option Bytes
  | .get k => some k
  | .getLive k => some k
  | .put k _ => some k
  | .del k => some k
  | _ => none

theorem maps_step {K : Bytes → Prop} (hK : PrefixFree K) {s : Two V} {m : Maps V} (op : ROp V) (hp : op.plain = true)
    (hk : ∀ k, op.key = some k → K k)
    (hc : Inv s.committed m.committed ∧ ∀ k, (m.committed k).isSome = true → K k)
    (hl : Inv s.live m.live ∧ ∀ k, (m.live k).isSome = true → K k) :
    (Inv (ideal E s op).1.committed (m.step op).committed ∧ ∀ k, ((m.step op).committed k).isSome = true → K k) ∧
    (Inv (ideal E s op).1.live (m.step op).live ∧ ∀ k, ((m.step op).live k).isSome = true → K k) := by
  cases op with
  | put k x =>
    refine ⟨hc, hl.1.step (op := .put k x) (hK.clear hl.2 (hk k rfl)), ?_⟩
    intro k' h'
    simp only [Maps.step] at h'
    split at h'
    · rename_i e; rw [e]; exact hk k rfl
    · exact hl.2 k' h'
  | del k =>
    refine ⟨hc, hl.1.step (op := .del k) (hK.clear hl.2 (hk k rfl)), ?_⟩
    intro k' h'
    simp only [Maps.step] at h'
    split at h'
    · simp at h'
    · exact hl.2 k' h'
  | commit => exact ⟨hl, hl⟩
  | commitHash => exact ⟨hl, hl⟩
  | rollback => exact ⟨hc, hc⟩
  | revert i root => simp [ROp.plain] at hp
  | get k => exact ⟨hc, hl⟩
  | getLive k => exact ⟨hc, hl⟩
  | hash => exact ⟨hc, hl⟩
  | preHash => exact ⟨hc, hl⟩
  | preCommit => exact ⟨hc, hl⟩
  | check => exact ⟨hc, hl⟩

theorem maps_run {K : Bytes → Prop} (hK : PrefixFree K) (ops : List (ROp V)) : ∀ (s : Two V) (m : Maps V),
    (∀ op ∈ ops, op.plain = true) → (∀ op ∈ ops, ∀ k, op.key = some k → K k) →
    (Inv s.committed m.committed ∧ ∀ k, (m.committed k).isSome = true → K k) →
    (Inv s.live m.live ∧ ∀ k, (m.live k).isSome = true → K k) →
    (Inv (irun E s ops).committed (ops.foldl Maps.step m).committed ∧ ∀ k, ((ops.foldl Maps.step m).committed k).isSome = true → K k) ∧
    (Inv (irun E s ops).live (ops.foldl Maps.step m).live ∧ ∀ k, ((ops.foldl Maps.step m).live k).isSome = true → K k) := by
  induction ops with
  | nil => intro s m _ _ hc hl; exact ⟨hc, hl⟩
  | cons op ops ih =>
    intro s m hp hk hc hl
    obtain ⟨h1, h2⟩ := maps_step (E := E) hK op (hp op List.mem_cons_self) (hk op List.mem_cons_self) hc hl
    exact ih _ _ (fun o ho => hp o (List.mem_cons_of_mem _ ho)) (fun o ho => hk o (List.mem_cons_of_mem _ ho)) h1 h2

theorem irun_append (E : Env V) (s : Two V) (a b : List (ROp V)) : irun E s (a ++ b) = irun E (irun E s a) b := by
  rw [irun, List.foldl_append]
  rfl

theorem rrun_append (E : Env V) (F : Faults) (L : Limits) (r : Rev V) (a b : List (ROp V)) :
    rrun E F L r (a ++ b) = rrun E F L (rrun E F L r a) b := by
  rw [rrun, List.foldl_append]
  rfl

/-- **C16, as maps.** Over a prefix-free set of keys: after any sequence of calls other than `RevertTo`, `Get` answers as
the map at the last commit, and `GetLive` as the map that has in addition the changes since the last commit or
rollback. -/
theorem C16_maps (hE : E.Lawful) (K : Bytes → Prop) (hK : PrefixFree K) (ops0 : List (SOp V)) (ops : List (ROp V))
    (hk0 : ∀ op ∈ ops0, ∀ k, op.key = some k → K k) (hk : ∀ op ∈ ops, ∀ k, op.key = some k → K k)
    (hp : ∀ op ∈ ops, op.plain = true) (hA : Apart E (trees E ops0 ops)) (L : Limits) (D : Disk) (hD : D.ok)
    (k : Bytes) (hkk : K k) :
    let r := rrun E noFaults L (revOf (srun E noFaults ⟨openTrie none, D⟩ ops0)) ops
    let m := ops.foldl Maps.step ⟨spec (ops0.filterMap SOp.call), spec (ops0.filterMap SOp.call)⟩
    (r.get E k).2 = m.committed k ∧ (r.getLive E k).2 = m.live k := by
  have hkeys : ∀ o ∈ ops0.filterMap SOp.call, K o.key := by
    intro o ho
    obtain ⟨op, h1, h2⟩ := List.mem_filterMap.1 ho
    exact hk0 op h1 _ (call_key h2)
  have h0 : Inv ((newTrie (V := V)).run (ops0.filterMap SOp.call)) (spec (ops0.filterMap SOp.call)) ∧
      ∀ k, (spec (ops0.filterMap SOp.call) k).isSome = true → K k :=
    ⟨Inv.of_prefixFree hK _ hkeys, spec_keys _ hkeys _ (by simp)⟩
  obtain ⟨⟨hc, hcK⟩, ⟨hl, hlK⟩⟩ := maps_run (E := E) hK ops (twoOf ops0) ⟨_, _⟩ hp hk h0 h0
  have hr := (routs_spec hE hA (noFaults_harmless E _) L ops _ _
    (revOf_inv hE ops0 (fun _ h => Or.inl h) hA (noFaults_harmless E _) hD)
    (fine_plain ops hp _) (fun _ h => Or.inr (ralong_live h))).2
  have h1 := (rstep_spec hE hA (noFaults_harmless E _) L hr (.get k) trivial hr.tl).1
  have h2 := (rstep_spec hE hA (noFaults_harmless E _) L hr (.getLive k) trivial hr.tl).1
  simp only [rstep, ideal, ROut.value.injEq] at h1 h2
  rw [hc.get (hK.clear hcK hkk)] at h1
  rw [hl.get (hK.clear hlK hkk)] at h2
  exact ⟨h1, h2⟩

/-! ### C17 -/

/-- A call that neither commits nor rolls back nor reverts. -/
def ROp.quiet : ROp V → Bool
  | .revert _ _ => false
  | .commit => false
  | .commitHash => false
  | .rollback => false
  | _ => true

theorem quiet_pts (ops : List (ROp V)) : ∀ (s : Two V), (∀ op ∈ ops, op.quiet = true) →
    s.pts <+: (irun E s ops).pts ∧ (irun E s ops).committed = s.committed := by
  induction ops with
  | nil => intro s _; exact ⟨List.prefix_refl _, rfl⟩
  | cons op ops ih =>
    intro s h
    obtain ⟨h1, h2⟩ := ih (ideal E s op).1 (fun o ho => h o (List.mem_cons_of_mem _ ho))
    have hq := h op List.mem_cons_self
    have : s.pts <+: (ideal E s op).1.pts ∧ (ideal E s op).1.committed = s.committed := by
      cases op <;> first | exact ⟨List.prefix_refl _, rfl⟩ | exact ⟨List.prefix_append _ _, rfl⟩ | simp [ROp.quiet] at hq
    exact ⟨this.1.trans h1, h2.trans this.2⟩

theorem fineOps_append (a b : List (ROp V)) : ∀ s : Two V, FineOps E s (a ++ b) ↔ FineOps E s a ∧ FineOps E (irun E s a) b := by
  induction a with
  | nil => intro s; simp [FineOps, irun]
  | cons op a ih =>
    intro s
    rw [List.cons_append, FineOps, FineOps, ih, and_assoc]
    rfl

/-- Reverting to a check point, stated with what can be observed: a check point is taken after the calls `pre`; calls `mid`
follow that do not commit, roll back or revert; then reverting to the check point succeeds and `GetLive` answers as it
did before. -/
def Reverts (E : Env V) (L : Limits) (r : Rev V) (pre mid : List (ROp V)) : Prop :=
  ∃ i root, (rstep E noFaults L (rrun E noFaults L r pre) .check).2 = .point i root ∧
    (rstep E noFaults L (rrun E noFaults L r (pre ++ .check :: mid)) (.revert i root)).2 = .done true ∧
    ∀ k, ((rrun E noFaults L r (pre ++ .check :: mid ++ [.revert i root])).getLive E k).2 =
      ((rrun E noFaults L r pre).getLive E k).2

/-- **C17, what holds.** Whatever the calls before, with whatever reverts of the kind `Fine`: reverting to a check point
restores the live contents, if another check point is still held from before it, or if there was no change between the last
commit or rollback and the check point. -/
theorem C17_reverts_partial (hE : E.Lawful) (ops0 : List (SOp V)) (pre mid : List (ROp V)) (hm : ∀ op ∈ mid, op.quiet = true)
    (hf : FineOps E (twoOf ops0) pre)
    (hfirst : (irun E (twoOf ops0) pre).pts = [] → (irun E (twoOf ops0) pre).live.root = (irun E (twoOf ops0) pre).committed.root)
    (hA : Apart E (trees E ops0 (pre ++ .check :: mid))) (L : Limits) (D : Disk) (hD : D.ok) :
    Reverts E L (revOf (srun E noFaults ⟨openTrie none, D⟩ ops0)) pre mid := by
  have hF := noFaults_harmless E (nodesOf (trees E ops0 (pre ++ .check :: mid)))
  have h0 := revOf_inv hE ops0 (fun _ h => Or.inl h) hA hF hD
  have hpq : ∀ op ∈ mid, op.plain = true := by
    intro op ho
    have := hm op ho
    cases op <;> simp_all [ROp.plain, ROp.quiet]
  have h1 := (routs_spec hE hA hF L pre _ _ h0 hf
    (fun p hp => Or.inr (ralong_live (hp.trans (List.prefix_append _ _))))).2
  obtain ⟨hc1, hc2⟩ := rstep_spec hE hA hF L h1 .check trivial h1.tl
  have h2 := (routs_spec hE hA hF L (pre ++ .check :: mid) _ _ h0
    ((fineOps_append pre _ _).2 ⟨hf, trivial, fine_plain mid hpq _⟩) (fun p hp => Or.inr (ralong_live hp))).2
  set s := irun E (twoOf ops0) pre with hs
  have hrun : irun E (twoOf ops0) (pre ++ .check :: mid) = irun E (ideal E s .check).1 mid := by
    rw [irun_append]; rfl
  obtain ⟨hq1, hq2⟩ := quiet_pts (E := E) mid (ideal E s .check).1 hm
  rw [← hrun] at hq1 hq2
  have hget : (irun E (twoOf ops0) (pre ++ .check :: mid)).pts[s.pts.length]? = some s.live := by
    obtain ⟨t, ht⟩ := hq1
    rw [← ht]
    show ((s.pts ++ [s.live]) ++ t)[s.pts.length]? = _
    simp
  have hfine : Fine (irun E (twoOf ops0) (pre ++ .check :: mid)) (.revert s.pts.length (nh E s.live.root)) := by
    refine ⟨nh_len hE _, ?_⟩
    intro hz m hmm
    rw [hz, hmm] at hget
    cases hget
    rw [hq2]
    exact hfirst (List.length_eq_zero_iff.1 hz)
  have hid : ideal E (irun E (twoOf ops0) (pre ++ .check :: mid)) (.revert s.pts.length (nh E s.live.root)) =
      (⟨(irun E (twoOf ops0) (pre ++ .check :: mid)).committed, s.live,
        (irun E (twoOf ops0) (pre ++ .check :: mid)).pts.take s.pts.length⟩, .done true) := by
    rw [ideal, hget]
    exact if_pos rfl
  obtain ⟨hr1, hr2⟩ := rstep_spec hE hA hF L h2 _ hfine (by rw [hid]; exact h1.tl)
  refine ⟨s.pts.length, nh E s.live.root, hc1, by rw [hr1, hid], fun k => ?_⟩
  have ha := (rstep_spec hE hA hF L hr2 (.getLive k) trivial hr2.tl).1
  have hb := (rstep_spec hE hA hF L h1 (.getLive k) trivial h1.tl).1
  rw [hid] at ha
  simp only [rstep, ideal, ROut.value.injEq] at ha hb
  rw [hb, ← ha, rrun_append]
  rfl

/-- **C17, what holds,** for sequences that contain reverts: every call answers as the two tries in memory with the copies
made at the check points, if every revert gives a 32-byte root, and asks for check point 0 only when that was taken
without a change since the last commit or rollback. -/
theorem C17_two_tries_partial (hE : E.Lawful) (ops0 : List (SOp V)) (ops : List (ROp V)) (hf : FineOps E (twoOf ops0) ops)
    (hA : Apart E (trees E ops0 ops)) (L : Limits) (D : Disk) (hD : D.ok) :
    routs E noFaults L (revOf (srun E noFaults ⟨openTrie none, D⟩ ops0)) ops = iouts E (twoOf ops0) ops :=
  (routs_spec hE hA (noFaults_harmless E _) L ops _ _ (revOf_inv hE ops0 (fun _ h => Or.inl h) hA (noFaults_harmless E _) hD)
    hf (fun _ h => Or.inr (ralong_live h))).1

/-! ### Examples -/

/-- The values in a tree. -/
def valuesOf : Node V → List V
  | .nil => []
  | .mk _ v c => v.toList ++ nibbles.flatMap fun i => valuesOf (c i)

theorem mem_valuesOf {n : Node V} : ∀ {q : List Nib} {x : V}, lookup n q = some x → x ∈ valuesOf n := by
  induction n with
  | nil => intro q x h; simp [lookup] at h
  | mk p v c ih =>
    intro q x h
    rw [lookup] at h
    split at h
    · rw [valuesOf, List.mem_append]
      cases hq : q.drop p.length with
      | nil => rw [hq] at h; exact Or.inl (by simpa using h)
      | cons i q' => rw [hq] at h; exact Or.inr (List.mem_flatMap.2 ⟨i, mem_nibbles i, ih i h⟩)
    · cases h

/-- The trees of a revertable trie, listed. -/
def treeList (E : Env V) (ops0 : List (SOp V)) (ops : List (ROp V)) : List (Node V) :=
  alongList ops0 ++ (List.range (ops.length + 1)).flatMap fun n =>
    [(irun E (twoOf ops0) (ops.take n)).committed.root, (irun E (twoOf ops0) (ops.take n)).live.root]

theorem trees_mem {ops0 : List (SOp V)} {ops : List (ROp V)} {a : Node V} (h : trees E ops0 ops a) : a ∈ treeList E ops0 ops := by
  rw [treeList, List.mem_append]
  rcases h with h | ⟨pre, hp, h⟩
  · exact Or.inl (along_mem h)
  · refine Or.inr (List.mem_flatMap.2 ⟨pre.length, ?_, ?_⟩)
    · have := hp.length_le
      rw [List.mem_range]
      omega
    · rw [← List.prefix_iff_eq_take.1 hp]
      rcases h with rfl | rfl
      · exact List.mem_cons_self
      · exact List.mem_cons_of_mem _ List.mem_cons_self

theorem trees_apart {ops0 : List (SOp V)} {ops : List (ROp V)}
    (h1 : ∀ x ∈ (treeList E ops0 ops).flatMap valuesOf, ∀ y ∈ (treeList E ops0 ops).flatMap valuesOf, E.vh x = E.vh y → x = y)
    (h2 : ∀ x ∈ (treeList E ops0 ops).flatMap (inputs E.H E.R E.vh), ∀ y ∈ (treeList E ops0 ops).flatMap (inputs E.H E.R E.vh),
      E.H x = E.H y → x = y)
    (h3 : ∀ a ∈ treeList E ops0 ops, no64b E.R a = true) : Apart E (trees E ops0 ops) := by
  refine ⟨Or.inl ⟨[], List.nil_prefix, rfl⟩, ?_, fun ha => no64_of (h3 _ (trees_mem ha)), ?_⟩
  · intro a b q r x y ha hb hx hy
    exact h1 x (List.mem_flatMap.2 ⟨a, trees_mem ha, mem_valuesOf hx⟩) y (List.mem_flatMap.2 ⟨b, trees_mem hb, mem_valuesOf hy⟩)
  · rintro a b ha hb ⟨x, hx, y, hy, hne, he⟩
    exact hne (h2 x (List.mem_flatMap.2 ⟨a, trees_mem ha, hx⟩) y (List.mem_flatMap.2 ⟨b, trees_mem hb, hy⟩) he)

/-- A session that leaves a changed trie, and calls on the revertable trie made of it. -/
def demoStart : List (SOp Bytes) := [.put [0x12, 0x34] [1]]

def demoRev : List (ROp Bytes) :=
  [.put [0x12, 0x35] [2], .get [0x12, 0x35], .getLive [0x12, 0x35], .check, .del [0x12, 0x34], .getLive [0x12, 0x34],
    .get [0x12, 0x34], .rollback, .getLive [0x12, 0x34], .getLive [0x12, 0x35], .put [0x13, 0x35] [3], .commit, .get [0x13, 0x35]]

theorem demoRev_apart : Apart toyE (trees toyE demoStart demoRev) :=
  trees_apart (by decide +kernel) (by decide +kernel) (by decide +kernel)

example : routs toyE noFaults realLimits (revOf (srun toyE noFaults ⟨openTrie none, freshDisk⟩ demoStart)) demoRev =
    iouts toyE (twoOf demoStart) demoRev :=
  C16_two_tries toyE_lawful demoStart demoRev (by decide) demoRev_apart realLimits freshDisk freshDisk_ok

example : (iouts toyE (twoOf demoStart) demoRev).eraseIdx 3 =
    [.changed true, .value none, .value (some [2]), .deleted true (some [1]), .value none, .value (some [1]),
      .done true, .value (some [1]), .value none, .changed true, .done true, .value (some [3])] := by
  decide +kernel

example (k : Bytes) (hk : k.length = 2) :
    let r := rrun toyE noFaults realLimits (revOf (srun toyE noFaults ⟨openTrie none, freshDisk⟩ demoStart)) demoRev
    let m := demoRev.foldl Maps.step ⟨spec (demoStart.filterMap SOp.call), spec (demoStart.filterMap SOp.call)⟩
    (r.get toyE k).2 = m.committed k ∧ (r.getLive toyE k).2 = m.live k :=
  C16_maps toyE_lawful _ (prefixFree_fixed 2) demoStart demoRev (by simp [demoStart, SOp.key]) (by simp [demoRev, ROp.key])
    (by decide) demoRev_apart realLimits freshDisk freshDisk_ok k hk

/-- A check point, a change, a second check point, a change. -/
def demoPre : List (ROp Bytes) := [.check, .put [0x12, 0x35] [2]]
def demoMid : List (ROp Bytes) := [.del [0x12, 0x34], .put [0x12, 0x35] [3], .check]

example : Reverts toyE realLimits (revOf (srun toyE noFaults ⟨openTrie none, freshDisk⟩ demoStart)) demoPre demoMid :=
  C17_reverts_partial toyE_lawful demoStart demoPre demoMid (by decide) ⟨trivial, trivial, trivial⟩
    (fun h => absurd h (by decide +kernel)) (trees_apart (by decide +kernel) (by decide +kernel) (by decide +kernel))
    realLimits freshDisk freshDisk_ok

/-- What `RevertTo` is documented to do. -/
def RevertLaw (V : Type) : Prop := ∀ (E : Env V), E.Lawful → ∀ (ops0 : List (SOp V)) (pre mid : List (ROp V)),
  (∀ op ∈ mid, op.quiet = true) → FineOps E (twoOf ops0) pre → Apart E (trees E ops0 (pre ++ .check :: mid)) →
  ∀ (L : Limits) (D : Disk), D.ok → Reverts E L (revOf (srun E noFaults ⟨openTrie none, D⟩ ops0)) pre mid

/-- **C17, refuted.** Reverting to the first check point drops the changes made before it as well. -/
theorem C17_refuted : ¬ RevertLaw Bytes := by
  intro h
  obtain ⟨i, root, h1, -, h3⟩ := h toyE toyE_lawful [] [.put [0x12, 0x34] [1]] [.put [0x12, 0x35] [2]] (by decide) ⟨trivial, trivial⟩
    (trees_apart (by decide +kernel) (by decide +kernel) (by decide +kernel)) realLimits freshDisk freshDisk_ok
  have hi : (i, root) = (0, nh toyE (newTrie.run [.put [0x12, 0x34] [1]]).root) := by
    have h4 : (rstep toyE noFaults realLimits (rrun toyE noFaults realLimits
      (revOf (srun toyE noFaults ⟨openTrie none, freshDisk⟩ [])) [.put [0x12, 0x34] [1]]) .check).2 =
      .point 0 (nh toyE (newTrie.run [.put [0x12, 0x34] [1]]).root) := by decide +kernel
    rw [h1] at h4
    simpa using h4
  cases hi
  have := h3 [0x12, 0x34]
  revert this
  decide +kernel

end Verif.Trie.Store

import Verif.HTree.Revert
import Verif.HTree.Merge
/-!
# Merging proofs into, and rebasing, a history tree that can be rolled back (C117)

`MergeProof` and `Rebase` of `RevertableHistoryTree` (`/repo/trie/revertable.go:471-494`) between the calls of `Verif.HTree.Revert`.
`MergeProof` is called for keys in use only: for others see C118.  A database is its content; `Rebase` of the adapter
(`/repo/db/adapters.go:98-103`) gives the same keys in the other database.
-/

namespace Verif.HTree
open Verif Verif.Merkle Verif.Trie

/-- `RevertableHistoryTree.MergeProof` (`/repo/trie/revertable.go:471-478`). -/
def RTree.mergeProof (E : HEnv) (R : Rtl) (s : RTree) (k : UInt64) (v : Bytes) (c : List NodeProof) : RTree × Bool :=
  match s.origin with
  | none => match s.live with
    | none => (s, false)
    | some l => let r := (l.on s.D).mergeProof E R k v c; (s.putL r.1, r.2)
  | some o =>
    let d := s.checkLive E o
    let r := (d.2.on d.1.D).mergeProof E R k v c
    (d.1.putL r.1, r.2)

/-- `HistoryTree.Rebase` (`/repo/trie/historytree.go:283-302`): the tree after `_commit` and `_hashValue`, and the tree opened in
the other storage at the root hash; `none` is an error. -/
def Tree.rebase (E : HEnv) (t : Tree) (D' : HDisk) : Tree × Option Tree :=
  let c := t.commit E
  if c.2 then
    let h := c.1.hash E
    match h.2 with
    | none => (h.1, none)
    | some root => (h.1, openTree E D' root false)
  else (c.1, none)

/-- `RevertableHistoryTree.Rebase` (`/repo/trie/revertable.go:480-494`) of a pointer that is not nil; `none` is an error, `some none`
the nil pointer. -/
def RTree.rebase (E : HEnv) (s : RTree) (D' : HDisk) : RTree × Option (Option RTree) :=
  match s.origin with
  | none => (s, some none)
  | some o =>
    let r := (o.on s.D).rebase E D'
    (s.putO r.1, r.2.map fun t => some ⟨t.D, some t.core, none⟩)

variable {E : HEnv} {D : HDisk}

theorem loc_spec (hH : ∀ b, (E.H b).length = 32) : ∀ (h : Nat) (n : TNode) (l : List Bytes) (k : Nat),
    HTree.Rep E D false h n l → k < l.length →
    ∃ n' v, locAt E D (digits (h + 1) k) n = (n', some (some (some v))) ∧ HTree.Rep E D false h n' l ∧ l[k]? = some v := by
  intro h
  induction h with
  | zero =>
    intro n l k hr hk
    obtain ⟨i, c, hop, ho, hs⟩ := opened_rep hH hr
    have hr' := hr
    rw [rep_eq] at hr'
    obtain ⟨j, hj, hdig⟩ := digits_succ 0 k (by have := hr'.2.1; omega)
    have hjk : j.val = k := by rw [← hj]; simp
    have hlf : i.leaf = true := by rw [ho.leaf]; rfl
    have hpart : (part 0 j l).head? = l[k]? := by
      rw [List.head?_eq_getElem?, part_getElem? _ _ _ _ (by norm_num), hjk]; simp
    have hval : l[k]? = some l[k] := List.getElem?_eq_getElem hk
    have hleaf : i.leafs j = some l[k] := by
      rcases ho.slot j with h1 | ⟨h1, _⟩
      · unfold Known at h1
        rw [if_pos rfl, hpart, hval] at h1
        exact h1
      · cases h1
    rw [hdig, locAt]
    simp only [hop, Bool.true_eq_false, if_false, digits, if_true, hlf, hleaf, Option.map_some]
    exact ⟨_, _, rfl, rep_open hr ho hs, hval⟩
  | succ h ih =>
    intro n l k hr hk
    obtain ⟨i, c, hop, ho, hs⟩ := opened_rep hH hr
    have hr' := hr
    rw [rep_eq] at hr'
    obtain ⟨j, hj, hdig⟩ := digits_succ (h + 1) k (by have := hr'.2.1; omega)
    have hlf : i.leaf = false := by rw [ho.leaf]; rfl
    have hmod : k % 2 ^ (4 * (h + 1)) < 2 ^ (4 * h + 4) := Nat.mod_lt _ (pow_pos2 _)
    have hdm := Nat.div_add_mod k (2 ^ (4 * (h + 1)))
    rw [hj] at hdm
    have hlk : l[k]? = (part (h + 1) j l)[k % 2 ^ (4 * (h + 1))]? := by
      rw [part_getElem? _ _ _ _ hmod, Nat.mul_comm, hdm]
    have hval : l[k]? = some l[k] := List.getElem?_eq_getElem hk
    have hklt : k % 2 ^ (4 * (h + 1)) < (part (h + 1) j l).length := by
      by_contra hn
      rw [hlk, List.getElem?_eq_none (by omega)] at hval
      cases hval
    have hne : part (h + 1) j l ≠ [] := by
      intro e; rw [e] at hklt; simp at hklt
    have hsome : (c j).isSome = true := by
      rcases ho.slot j with h1 | ⟨h1, _⟩
      · unfold Known at h1
        rw [if_neg (by omega)] at h1
        rcases h1 with ⟨h1, _⟩ | ⟨_, h1⟩
        · exact absurd h1 hne
        · exact Kid.isSome h1
      · cases h1
    obtain ⟨n', v, e1, e2, e3⟩ := ih (c j) (part (h + 1) j l) _ (ho.kid hsome).2 hklt
    rw [hdig, locAt]
    simp only [hop, Bool.true_eq_false, if_false, hlf, Bool.false_eq_true, digits_ne_nil, Nat.succ_ne_zero, hsome, if_true, e1]
    exact ⟨_, _, rfl, rep_open hr (ho.setKid' hsome e2) hs, hlk.trans e3⟩

/-- `MergeProof` of a key that is there. -/
theorem merge_holds (hH : ∀ b, (E.H b).length = 32) (R : Rtl) {t : Tree} {vals : List Bytes} (hh : Holds E false t vals) {k : UInt64}
    (hk : k.toNat < vals.length) (v : Bytes) (c : List NodeProof) :
    ∃ t' b, t.mergeProof E R k v c = (t', b) ∧ Holds E false t' vals ∧ t'.D = t.D ∧
      (b = true ↔ v.length = 32 ∧ c ≠ [] ∧ chainBigKey c = k.toNat ∧ chainProof E.H R c v = some (rootOf E.H vals) ∧
        vals[k.toNat]? = some v) := by
  have h0 : vals ≠ [] := by rintro rfl; simp at hk
  have hrep : HTree.Rep E t.D false 15 t.root vals := by
    rcases hh.2 with h | h
    · exact absurd h.1 h0
    · exact h
  have hroot : t.root.isSome = true := by
    have := hrep
    rw [rep_eq] at this
    rcases this.2.2 with ⟨⟨i, e, _⟩, _⟩ | ⟨i, c, e, _⟩ <;> rw [e] <;> rfl
  unfold Tree.mergeProof
  split
  · rename_i hc
    refine ⟨_, _, rfl, hh, rfl, ?_⟩
    constructor
    · intro h; cases h
    · rintro ⟨e1, e2, e3, _⟩
      rcases hc with hc | hc | hc | hc
      · exact absurd e1 hc
      · exact absurd hc e2
      · rw [hroot] at hc; cases hc
      · exact absurd e3 hc
  · rename_i hc
    push Not at hc
    obtain ⟨c1, c2, _, c4⟩ := hc
    obtain ⟨t1, f1, f2, f3, f4⟩ := hash_holds hh
    have hr1 := f4 hrep
    simp only [f1]
    rw [toHash_of_len c1]
    unfold chainProof
    cases hi : chainItems E.H R c with
    | none => exact ⟨_, _, rfl, f2, f3, by simp⟩
    | some items =>
      simp only
      by_cases he : evalItems E.H items v = (hspec E.H 64 vals).getD (nilHash E.H)
      · rw [if_neg (by simpa using he)]
        rw [heightToPrefix_eq]
        obtain ⟨n', x, g1, g2, g3⟩ := loc_spec (D := t.D) hH 15 _ vals k.toNat hr1 hk
        simp only [g1]
        refine ⟨_, _, rfl, ⟨f2.1, .inr ?_⟩, f3, ?_⟩
        · show HTree.Rep E t1.D false 15 n' vals
          rw [f3]; exact g2
        · rw [g3]
          simp only [decide_eq_true_eq, Option.some.injEq, Option.map_some]
          exact ⟨fun h => ⟨c1, c2, c4, he, h⟩, fun h => h.2.2.2.2⟩
      · rw [if_pos he]
        refine ⟨_, _, rfl, f2, f3, ?_⟩
        simp only [Bool.false_eq_true, Option.map_some, Option.some.injEq, false_iff, not_and]
        intro _ _ _ h
        exact absurd h he

/-! ### Runs -/

/-- The calls: those of `ROp`, `MergeProof`, and `Rebase` to another storage. -/
inductive XOp where
  | call (op : ROp)
  | merge (key : UInt64) (v : Bytes) (c : List NodeProof)
  | rebase (D' : HDisk)

/-- The results; of `Rebase`, what it returns. -/
inductive XOut where
  | out (o : ROut)
  | merged (ok : Bool)
  | rebased (r : Option (Option RTree))

/-- One call. -/
def xstep (E : HEnv) (R : Rtl) (s : RTree) : XOp → RTree × XOut
  | .call op => let r := rstep E s op; (r.1, .out r.2)
  | .merge k v c => let r := s.mergeProof E R k v c; (r.1, .merged r.2)
  | .rebase D' => let r := s.rebase E D'; (r.1, .rebased r.2)

/-- A sequence of calls. -/
def xrun (E : HEnv) (R : Rtl) (s : RTree) : List XOp → RTree × List XOut
  | [] => (s, [])
  | op :: ops => let r := xstep E R s op; let q := xrun E R r.1 ops; (q.1, r.2 :: q.2)

/-- The calls that may change the lists. -/
def plain : List XOp → List ROp
  | [] => []
  | .call op :: ops => op :: plain ops
  | _ :: ops => plain ops

/-- `MergeProof` is called for keys in use only. -/
def Two.InUse (w : Two) : List XOp → Prop
  | [] => True
  | .call op :: ops => (w.step op).InUse ops
  | .merge k _ _ :: ops => k.toNat < w.pending.length ∧ w.InUse ops
  | .rebase _ :: ops => w.InUse ops

/-- What is to be answered: `MergeProof` changes nothing and accepts a value exactly if it is the one at the key and the chain is of
this key and leads to the root hash. -/
def Two.XAnswers (E : HEnv) (R : Rtl) (w : Two) : List XOp → List XOut → Prop
  | [], os => os = []
  | .call op :: ops, o :: os => (∃ o', o = .out o' ∧ w.Answer E R op o') ∧ (w.step op).XAnswers E R ops os
  | .merge k v c :: ops, o :: os => (∃ b, o = .merged b ∧ (b = true ↔ v.length = 32 ∧ c ≠ [] ∧ chainBigKey c = k.toNat ∧
      chainProof E.H R c v = some (rootOf E.H w.pending) ∧ w.pending[k.toNat]? = some v)) ∧ w.XAnswers E R ops os
  | .rebase _ :: ops, _ :: os => w.XAnswers E R ops os
  | _ :: _, [] => False

section
variable {U : Nat → List Bytes → Prop}

theorem merge_rholds (hH : ∀ b, (E.H b).length = 32) (hC : E.C.Lawful) (hU : Universe E U) (hF : ∀ x, E.F x = false) (R : Rtl)
    {s : RTree} {w : Two} (hm : w.committed.length < 2 ^ 64)
    (hu : w.committed ≠ [] → U 15 w.committed) (hh : RHolds E s w) {k : UInt64} (hk : k.toNat < w.pending.length) (v : Bytes)
    (c : List NodeProof) :
    ∃ s' b, s.mergeProof E R k v c = (s', b) ∧ RHolds E s' w ∧ (b = true ↔ v.length = 32 ∧ c ≠ [] ∧ chainBigKey c = k.toNat ∧
      chainProof E.H R c v = some (rootOf E.H w.pending) ∧ w.pending[k.toNat]? = some v) := by
  obtain ⟨o, ho, hc, hl⟩ := hh
  have hlive : ∀ l, s.live = some l → Holds E false (l.on s.D) w.pending := fun l e => by rw [e] at hl; exact hl
  have hnone : s.live = none → w.pending = w.committed := fun e => by rw [e] at hl; exact hl
  simp only [RTree.mergeProof, ho]
  obtain ⟨s1, l, hs1, ⟨o1, ho1, hc1⟩, hl1⟩ : ∃ s1 l, s.checkLive E o = (s1, l) ∧ (∃ o1, s1.origin = some o1 ∧
      Holds E false (o1.on s1.D) w.committed) ∧ Holds E false (l.on s1.D) w.pending := by
    unfold RTree.checkLive
    cases e : s.live with
    | some l => exact ⟨_, _, rfl, ⟨o, ho, hc⟩, hlive l e⟩
    | none =>
      obtain ⟨t', c, e1, e2, e3, _⟩ := clone_holds hH hC hU hF hm hu hc
      simp only [e1]
      exact ⟨_, _, rfl, ⟨c, rfl, e3⟩, by rw [hnone e]; exact e2⟩
  rw [hs1]
  simp only
  obtain ⟨t', b, g1, g2, g3, g4⟩ := merge_holds hH R hl1 hk v c
  simp only [g1]
  exact ⟨_, _, rfl, rholds_putL hU ho1 hc1 hu (by rw [g3]; exact Ext.refl) g2, g4⟩

theorem readFull_sub {D D' : HDisk} (hD : ∀ x b, D x = some b → D' x = some b) {leaf : Bool} {x : Bytes}
    (h : D x ≠ none ∨ x = [] ∨ x = nilHash E.H) : readFull E D' leaf x = readFull E D leaf x := by
  unfold readFull
  by_cases hx : x = [] ∨ x = nilHash E.H
  · rw [if_pos hx, if_pos hx]
  · rw [if_neg hx, if_neg hx]
    rcases h with h | h
    · cases e : D x with
      | none => exact absurd e h
      | some b => rw [hD x b e]
    · exact absurd h hx

theorem new_not_open {H : Bytes → Bytes} {h : Nat} {D : HDisk} {leaf : Bool} {l : List Bytes}
    (h0 : l ≠ []) {i : TInfo} {c : Nib → TNode} (e : newTNode leaf = .mk i c) (ho : OpenC H false h (SKid E D false h) i c l) : False := by
  unfold newTNode at e
  cases e
  obtain ⟨j, h1, h2⟩ := ho.held h0
  unfold Known at h2
  split at h2
  · cases e : part h j l with
    | nil => exact h1 e
    | cons a b => rw [e] at h2; cases h2
  · rcases h2 with ⟨h2, _⟩ | ⟨_, h2⟩
    · exact h1 h2
    · cases h with
      | zero => exact h2
      | succ h => obtain ⟨⟨i, e, _⟩, _⟩ := h2; cases e

/-- What is stored is stored in a storage that has more. -/
theorem stored_sub {D D' : HDisk} (hD : ∀ x b, D x = some b → D' x = some b) : ∀ (h : Nat) (l : List Bytes), l ≠ [] →
    Stored E D false h l → Stored E D' false h l := by
  intro h
  induction h with
  | zero =>
    intro l h0 hs
    rw [stored_eq] at hs ⊢
    obtain ⟨i, c, hd, hr, ho⟩ := hs
    refine ⟨i, c, hd, fun x b hx => ?_, ho.mono fun j n _ hk => hk.elim⟩
    rw [← hr x b hx]
    refine readFull_sub hD (by_contra fun hn => ?_)
    push Not at hn
    have := hr x b hx
    unfold readFull at this
    rw [if_neg (by rintro (h | h); exacts [hn.2.1 h, hn.2.2 h]), hn.1] at this
    exact new_not_open h0 (congrArg Prod.fst this) ho
  | succ h ih =>
    intro l h0 hs
    rw [stored_eq] at hs ⊢
    obtain ⟨i, c, hd, hr, ho⟩ := hs
    refine ⟨i, c, hd, fun x b hx => ?_, ho.mono fun j n hne hk => ⟨hk.1, ih _ hne hk.2⟩⟩
    rw [← hr x b hx]
    refine readFull_sub hD (by_contra fun hn => ?_)
    push Not at hn
    have := hr x b hx
    unfold readFull at this
    rw [if_neg (by rintro (h | h); exacts [hn.2.1 h, hn.2.2 h]), hn.1] at this
    exact new_not_open h0 (congrArg Prod.fst this) ho

theorem rebase_rholds (hH : ∀ b, (E.H b).length = 32) (hC : E.C.Lawful) (hU : Universe E U) (hF : ∀ x, E.F x = false)
    {s : RTree} {w : Two} (hm : w.committed.length < 2 ^ 64) (hu : w.committed ≠ [] → U 15 w.committed)
    (hv : w.pending ≠ [] → U 15 w.pending) (hh : RHolds E s w) (D' : HDisk) :
    RHolds E (s.rebase E D').1 w ∧ ((∀ x b, (s.rebase E D').1.D x = some b → D' x = some b) →
      ∃ s', (s.rebase E D').2 = some (some s') ∧ RHolds E s' ⟨w.committed, w.committed⟩) := by
  obtain ⟨o, ho, hc, hl⟩ := hh
  have hx := commit_ext hH hC hU hu hc
  obtain ⟨t1, ok, e1, e2, e3, e4⟩ := commit_holds hH hC hU hu hc
  have hok := e3 hF
  subst hok
  rw [e1] at hx
  obtain ⟨t2, f1, f2, f3, _⟩ := hash_holds e2
  have key : (o.on s.D).rebase E D' = (t2, openTree E D' (rootOf E.H w.committed) false) := by
    unfold Tree.rebase
    simp only [e1, if_true, f1]
    rfl
  simp only [RTree.rebase, ho, key]
  refine ⟨⟨t2.core, rfl, f2, ?_⟩, ?_⟩
  · show match s.live with | none => _ | some l => Holds E false (l.on t2.D) _
    cases e : s.live with
    | none => rw [e] at hl; exact hl
    | some l =>
      rw [e] at hl
      rw [f3]
      exact holds_ext hU hv (t := l.on s.D) hx hl
  · intro hD
    change ∀ x b, t2.D x = some b → D' x = some b at hD
    by_cases h0 : w.committed = []
    · have : openTree E D' (rootOf E.H w.committed) false = some ⟨0, .nil, D'⟩ := by
        unfold openTree rootOf
        rw [if_pos (.inr (by rw [h0, hspec_nil]; rfl))]
      rw [this]
      exact ⟨_, rfl, _, rfl, ⟨by rw [h0]; rfl, .inl ⟨h0, rfl⟩⟩, rfl⟩
    · obtain ⟨x, hx'⟩ := hspec_some (H := E.H) (k := 64) h0
      have hne : x ≠ nilHash E.H := fun e => hU.notNil (hu h0) (hx'.trans (congrArg some e))
      have hst : Stored E D' false 15 w.committed := stored_sub hD _ _ h0 (by rw [f3]; exact e4 rfl h0)
      obtain ⟨t3, g1, g2, g3⟩ := open_holds hH false h0 (by omega) hst hx' hne
      unfold rootOf
      rw [hx', Option.getD_some, g1]
      exact ⟨_, rfl, _, rfl, g3, rfl⟩

theorem xrun_holds (hH : ∀ b, (E.H b).length = 32) (hC : E.C.Lawful) (hF : ∀ x, E.F x = false) (R : Rtl) {ls : List (List Bytes)}
    (hf : FairOn E.H (ValOf ls) (InputOf E.H ls)) (hn : ∀ l ∈ ls, l.length < 2 ^ 64) : ∀ (ops : List XOp) (s : RTree) (w : Two),
    (∀ l ∈ w.seen (plain ops), l ∈ ls) → w.committed ∈ ls → w.InUse ops → RHolds E s w →
    RHolds E (xrun E R s ops).1 (w.run (plain ops)) ∧ w.XAnswers E R ops (xrun E R s ops).2 ∧ (w.run (plain ops)).committed ∈ ls ∧
      (w.run (plain ops)).pending ∈ ls := by
  intro ops
  have hU := inputOf_universe hH hf
  induction ops with
  | nil => intro s w hs hm _ hh; exact ⟨hh, rfl, hm, hs _ (w.seen_pending [])⟩
  | cons op ops ih =>
    intro s w hs hm hi hh
    have hp : w.pending ∈ ls := hs _ (w.seen_pending _)
    have hcm := blocksOn_mem (H := E.H) hm (hn _ hm)
    have hpm := blocksOn_mem (H := E.H) hp (hn _ hp)
    cases op with
    | call op =>
      obtain ⟨h1, h2⟩ := rstep_holds hH hC hU hF R (hn _ hp) (hn _ hm) hcm hpm op hh
      have hm' : (w.step op).committed ∈ ls := by
        rcases w.step_committed op with e | e <;> rw [e] <;> assumption
      obtain ⟨g1, g2, g3⟩ := ih _ _ (fun l hl => hs l (List.mem_cons_of_mem _ hl)) hm' hi h1
      exact ⟨g1, ⟨⟨_, rfl, h2⟩, g2⟩, g3⟩
    | merge k v c =>
      obtain ⟨s', b, e1, e2, e3⟩ := merge_rholds hH hC hU hF R (hn _ hm) hcm hh hi.1 v c
      obtain ⟨g1, g2, g3⟩ := ih s' w hs hm hi.2 e2
      simp only [xrun, xstep, e1]
      exact ⟨g1, ⟨⟨_, rfl, e3⟩, g2⟩, g3⟩
    | rebase D' =>
      obtain ⟨g1, g2, g3⟩ := ih _ w hs hm hi (rebase_rholds hH hC hU hF (hn _ hm) hcm hpm hh D').1
      exact ⟨g1, g2, g3⟩

end

/-! ### C117 with `MergeProof` and `Rebase` -/

/-- C117: as `C117_run_partial`, with calls of `MergeProof` for keys in use, and of `Rebase` to any storage, in between. -/
theorem C117_merge_partial (E : HEnv) (hH : ∀ b, (E.H b).length = 32) (hC : E.C.Lawful) (hF : ∀ x, E.F x = false) (R : Rtl) (D : HDisk)
    (ops : List XOp) (hi : Two.InUse ⟨[], []⟩ ops) (hn : ∀ l ∈ Two.seen ⟨[], []⟩ (plain ops), l.length < 2 ^ 64)
    (hf : FairOn E.H (ValOf (Two.seen ⟨[], []⟩ (plain ops))) (InputOf E.H (Two.seen ⟨[], []⟩ (plain ops)))) :
    Two.XAnswers E R ⟨[], []⟩ ops (xrun E R (.new D) ops).2 :=
  (xrun_holds hH hC hF R hf hn ops _ _ (fun _ h => h) (Two.seen_pending _ _) hi (rholds_new E D)).2.1

/-- C117: after any calls, `Rebase` to a storage that has all that is stored gives a structure that answers any calls as one whose
committed and pending values are the committed values; pending values do not move. -/
theorem C117_rebase_partial (E : HEnv) (hH : ∀ b, (E.H b).length = 32) (hC : E.C.Lawful) (hF : ∀ x, E.F x = false) (R : Rtl) (D D' : HDisk)
    (ops : List XOp) (hi : Two.InUse ⟨[], []⟩ ops) (ops' : List ROp) (ls : List (List Bytes)) (hn : ∀ l ∈ ls, l.length < 2 ^ 64)
    (hf : FairOn E.H (ValOf ls) (InputOf E.H ls)) (hs : ∀ l ∈ Two.seen ⟨[], []⟩ (plain ops), l ∈ ls)
    (hs' : ∀ l ∈ Two.seen ⟨((⟨[], []⟩ : Two).run (plain ops)).committed, ((⟨[], []⟩ : Two).run (plain ops)).committed⟩ ops', l ∈ ls)
    (hD : ∀ x b, ((xrun E R (.new D) ops).1.rebase E D').1.D x = some b → D' x = some b) :
    ∃ s', ((xrun E R (.new D) ops).1.rebase E D').2 = some (some s') ∧
      Two.Answers E R ⟨((⟨[], []⟩ : Two).run (plain ops)).committed, ((⟨[], []⟩ : Two).run (plain ops)).committed⟩ ops'
        (rrun E s' ops').2 := by
  obtain ⟨g1, _, g3, g4⟩ := xrun_holds hH hC hF R hf hn ops _ _ hs (hs _ (Two.seen_pending _ _)) hi (rholds_new E D)
  obtain ⟨s', e1, e2⟩ := (rebase_rholds hH hC (inputOf_universe hH hf) hF (hn _ g3) (blocksOn_mem g3 (hn _ g3)) (blocksOn_mem g4 (hn _ g4))
    g1 D').2 hD
  exact ⟨s', e1, (rrun_holds hH hC hF R hf hn ops' _ _ hs' g3 e2).2.1⟩

/-! ### Examples -/

/-- Two values, one of them committed; their proofs are merged, a rebase, a rollback. -/
def mergeCalls : List XOp :=
  let two := (rrun toyHE (.new noDisk) [.append 0 (toyLeaf 100), .append 1 (toyLeaf 101), .commit]).1
  let chain := match (rstep toyHE two (.getProof 1)).2 with | .proof (some p) => p.2 | _ => []
  [.call (.append 0 (toyLeaf 100)), .call .commit, .call (.append 1 (toyLeaf 101)), .merge 1 (toyLeaf 101) chain,
    .merge 1 (toyLeaf 100) chain, .merge 0 (toyLeaf 101) chain, .rebase noDisk, .call .rollback, .call (.get 0)]

/-- The first merge is accepted, those of another value and of another key are not. -/
example : ((xrun toyHE toyRtl (.new noDisk) mergeCalls).2.map fun o => match o with
    | .merged b => some b | .out (.value v) => some (v == some (toyLeaf 100)) | _ => none) =
    [none, none, none, some true, some false, some false, none, none, some true] := by decide +kernel

theorem plain_mergeCalls : plain mergeCalls = [.append 0 (toyLeaf 100), .commit, .append 1 (toyLeaf 101), .rollback, .get 0] := rfl

theorem merge_seen : ∀ l ∈ Two.seen ⟨[], []⟩ (plain mergeCalls), ∃ n, l = fairVals.take n := by
  rw [plain_mergeCalls]
  have h : Two.seen ⟨[], []⟩ [.append 0 (toyLeaf 100), .commit, .append 1 (toyLeaf 101), .rollback, .get 0] =
      [0, 1, 1, 2, 1, 1].map fairVals.take := by decide +kernel
  intro l hl
  rw [h, List.mem_map] at hl
  obtain ⟨n, _, e⟩ := hl
  exact ⟨n, e.symm⟩

theorem merge_fair : FairOn toyH (ValOf (Two.seen ⟨[], []⟩ (plain mergeCalls))) (InputOf toyH (Two.seen ⟨[], []⟩ (plain mergeCalls))) := by
  refine fair_vals.on.mono ?_ ?_ (.inl rfl)
  · rintro v ⟨l, hl, hv⟩
    obtain ⟨n, rfl⟩ := merge_seen l hl
    exact List.mem_of_mem_take hv
  · rintro x (rfl | ⟨l, hl, hx⟩)
    · exact .inl rfl
    · obtain ⟨n, rfl⟩ := merge_seen l hl
      exact .inr ⟨n, hx⟩

/-- The assumptions hold for these calls. -/
example : Two.XAnswers toyHE toyRtl ⟨[], []⟩ mergeCalls (xrun toyHE toyRtl (.new noDisk) mergeCalls).2 :=
  C117_merge_partial toyHE toyHE_len toyC_lawful (fun _ => rfl) toyRtl noDisk mergeCalls
    ⟨by decide +kernel, by decide +kernel, by decide +kernel, trivial⟩
    (fun l hl => by obtain ⟨n, rfl⟩ := merge_seen l hl; have : (fairVals.take n).length ≤ 2 := by simp [fairVals]
                    omega) merge_fair

/-- The storage after a commit. -/
def filled : RTree := (rrun toyHE (.new noDisk) [.append 0 (toyLeaf 100), .append 1 (toyLeaf 101), .commit]).1

/-- A rebase to a copy of the storage reads the values; what was only pending is not there. -/
example : ((((rstep toyHE filled (.append 2 (toyLeaf 102))).1.rebase toyHE filled.D).2.bind id).map fun s =>
    ((rrun toyHE s [.get 1, .get 2, .append 2 (toyLeaf 103)]).2.map fun o => match o with
      | .value v => decide (v = some (toyLeaf 101)) | .done b => b | _ => false)) = some [true, false, true] := by decide +kernel

/-- C117 fails for a storage that does not have the nodes: `Rebase` copies nothing, it is an error, although the tree is there. -/
theorem C117_rebase_refuted : (filled.rebase toyHE noDisk).2.isNone = true ∧ (filled.rebase toyHE filled.D).2.isSome = true ∧
    ((rstep toyHE filled (.get 1)).2 matches .value (some _)) = true := by decide +kernel

end Verif.HTree

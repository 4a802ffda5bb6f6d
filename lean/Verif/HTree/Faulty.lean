import Verif.HTree.Claims

/-! # Writes of a history tree that fail (C166)

`commitNode` (`/repo/trie/historytree.go:845-866`) returns at the first child that cannot be saved, and the parent stays dirty. So, unlike
with tries (`Trie/Faulty.lean`), whatever fails, nothing under a clean node is missing. Model: `HTree/Model.lean`; here the keys for which
`Save` fails change from call to call. -/

namespace Verif.HTree.Faulty
open Verif Verif.Merkle Verif.Trie Verif.HTree

/-- The same digest and codec, other writes fail. -/
def failing (E : HEnv) (F : Bytes → Bool) : HEnv := { E with F := F }

theorem readFull_failing (E : HEnv) (F : Bytes → Bool) (D : HDisk) (b : Bool) (x : Bytes) :
    readFull (failing E F) D b x = readFull E D b x := rfl

theorem stored_failing {E : HEnv} (F : Bytes → Bool) {D : HDisk} {M : Bool} (h : Nat) : ∀ (l : List Bytes), Stored E D M h l →
    Stored (failing E F) D M h l := by
  induction h with
  | zero =>
    intro l hs
    rw [stored_eq] at hs ⊢
    obtain ⟨i, c, h1, h2, h3⟩ := hs
    exact ⟨i, c, h1, h2, h3.mono (K' := SKid (failing E F) D M 0) fun _ _ _ hk => hk.elim⟩
  | succ h ih =>
    intro l hs
    rw [stored_eq] at hs ⊢
    obtain ⟨i, c, h1, h2, h3⟩ := hs
    exact ⟨i, c, h1, h2, h3.mono (K' := SKid (failing E F) D M (h + 1)) fun _ _ _ hk => ⟨hk.1, ih _ hk.2⟩⟩

theorem rep_failing {E : HEnv} (F : Bytes → Bool) {D : HDisk} {M : Bool} (h : Nat) : ∀ (n : TNode) (l : List Bytes), HTree.Rep E D M h n l →
    HTree.Rep (failing E F) D M h n l := by
  induction h with
  | zero =>
    intro n l hr
    rw [rep_eq] at hr ⊢
    refine ⟨hr.1, hr.2.1, ?_⟩
    rcases hr.2.2 with ⟨hc, hs⟩ | ⟨i, c, rfl, ho, hs⟩
    · exact .inl ⟨hc, stored_failing F 0 _ hs⟩
    · exact .inr ⟨i, c, rfl, ho.mono (K' := Kid (failing E F) D M 0) fun _ _ _ hk => hk.elim, fun hd => stored_failing F 0 _ (hs hd)⟩
  | succ h ih =>
    intro n l hr
    rw [rep_eq] at hr ⊢
    refine ⟨hr.1, hr.2.1, ?_⟩
    rcases hr.2.2 with ⟨hc, hs⟩ | ⟨i, c, rfl, ho, hs⟩
    · exact .inl ⟨hc, stored_failing F _ _ hs⟩
    · exact .inr ⟨i, c, rfl, ho.mono (K' := Kid (failing E F) D M (h + 1)) fun _ n _ hk => ih n _ hk, fun hd => stored_failing F _ _ (hs hd)⟩

theorem holds_failing {E : HEnv} (F : Bytes → Bool) {M : Bool} {t : Tree} {vals : List Bytes} (h : Holds E M t vals) :
    Holds (failing E F) M t vals := ⟨h.1, h.2.imp_right (rep_failing F 15 _ _)⟩

theorem back (E : HEnv) (F : Bytes → Bool) : failing (failing E F) E.F = E := rfl

theorem holds_back {E : HEnv} {F : Bytes → Bool} {M : Bool} {t : Tree} {vals : List Bytes} (h : Holds (failing E F) M t vals) : Holds E M t vals := by
  have := holds_failing E.F h
  rwa [back] at this

theorem stored_back {E : HEnv} {F : Bytes → Bool} {D : HDisk} {M : Bool} {h : Nat} {l : List Bytes} (hs : Stored (failing E F) D M h l) :
    Stored E D M h l := by
  have := stored_failing E.F h l hs
  rwa [back] at this

/-- Calls, each with the keys for which `Save` fails in it. -/
def frun (E : HEnv) (t : Tree) : List ((Bytes → Bool) × Op) → Tree × List Out
  | [] => (t, [])
  | o :: ops => let r := step (failing E o.1) t o.2; let s := frun E r.1 ops; (s.1, r.2 :: s.2)

/-- The answers to them; a commit or a reopening may fail only if some `Save` may. -/
def FAnswers (E : HEnv) (R : Rtl) (vals : List Bytes) : List ((Bytes → Bool) × Op) → List Out → Prop
  | [], os => os = []
  | o :: ops, a :: os => Answer (failing E o.1) R vals o.2 a ∧ FAnswers E R (specStep vals o.2) ops os
  | _ :: _, [] => False

theorem frun_holds {E : HEnv} (hH : ∀ b, (E.H b).length = 32) (hC : E.C.Lawful) (R : Rtl) (final : List Bytes) (hn : final.length < 2 ^ 64)
    (hf : Fair E.H final) : ∀ (ops : List ((Bytes → Bool) × Op)) (t : Tree) (vals : List Bytes), specRun vals (ops.map Prod.snd) = final →
    Holds E false t vals → Holds E false (frun E t ops).1 final ∧ FAnswers E R vals ops (frun E t ops).2 := by
  intro ops
  induction ops with
  | nil => intro t vals hs hh; subst hs; exact ⟨hh, rfl⟩
  | cons o ops ih =>
    intro t vals hs hh
    have hp : vals <+: final := by rw [← hs]; exact specRun_prefix _ vals
    have hlen := hp.length_le
    have h1 := step_holds (E := failing E o.1) (U := Blocks E.H final) hH R (by omega : vals.length < 2 ^ 64) o.2
      (fun _ => ⟨hC, fair_universe (E := failing E o.1) hH hf, fun h0 => blocks_prefix h0 (by omega) hp⟩) (holds_failing o.1 hh)
    obtain ⟨e1, e2⟩ := ih (step (failing E o.1) t o.2).1 (specStep vals o.2) hs (holds_back h1.1)
    exact ⟨e1, h1.2, e2⟩

/-- **C166, for history trees.** Whatever `Save` calls fail, and differently in every commit, all the answers are those of the list of values;
commits and reopenings succeed when no `Save` fails, whatever failed before. -/
theorem C166_history (E : HEnv) (hH : ∀ b, (E.H b).length = 32) (hC : E.C.Lawful) (R : Rtl) (D : HDisk) (ops : List ((Bytes → Bool) × Op))
    (hn : (specRun [] (ops.map Prod.snd)).length < 2 ^ 64) (hf : Fair E.H (specRun [] (ops.map Prod.snd))) :
    FAnswers E R [] ops (frun E (emptyTree D) ops).2 :=
  (frun_holds hH hC R _ hn hf ops (emptyTree D) [] rfl (holds_empty E false D)).2

/-- **C166, for history trees.** A commit that returns nil has stored everything, whatever failed in it or before: the tree opened at the root
hash over its storage has all the values. -/
theorem C166_history_reported (E : HEnv) (hH : ∀ b, (E.H b).length = 32) (hC : E.C.Lawful) (R : Rtl) (D : HDisk)
    (ops : List ((Bytes → Bool) × Op)) (hn : (specRun [] (ops.map Prod.snd)).length < 2 ^ 64) (hf : Fair E.H (specRun [] (ops.map Prod.snd)))
    (F : Bytes → Bool) (hok : ((frun E (emptyTree D) ops).1.commit (failing E F)).2 = true) (h0 : specRun [] (ops.map Prod.snd) ≠ [])
    (check : Bool) :
    ∃ r t, (((frun E (emptyTree D) ops).1.commit (failing E F)).1.hash E).2 = some r ∧
      openTree E ((frun E (emptyTree D) ops).1.commit (failing E F)).1.D r check = some t ∧
      t.expecting.toNat = (specRun [] (ops.map Prod.snd)).length ∧ ∀ k, (t.get E k).2 = (specRun [] (ops.map Prod.snd))[k.toNat]? := by
  have hh := (frun_holds hH hC R _ hn hf ops (emptyTree D) [] rfl (holds_empty E false D)).1
  generalize (frun E (emptyTree D) ops).1 = t0 at *
  generalize specRun [] (ops.map Prod.snd) = vals at *
  obtain ⟨t', ok, e1, e2, -, e4⟩ := commit_holds (E := failing E F) (U := Blocks E.H vals) hH hC (fair_universe (E := failing E F) hH hf)
    (fun h0 => blocks_prefix h0 (by omega) (List.prefix_refl _)) (holds_failing F hh)
  rw [e1] at hok ⊢
  obtain ⟨t2, f1, f2, f3, -⟩ := hash_holds (E := E) (M := false) (t := t') (vals := vals) (holds_back e2)
  obtain ⟨x, hx⟩ := hspec_some (H := E.H) (k := 64) h0
  have hne : x ≠ nilHash E.H := fun e =>
    (fair_universe (E := E) hH hf).notNil (blocks_prefix h0 (by omega) (List.prefix_refl _)) (hx.trans (congrArg some e))
  obtain ⟨t3, g1, -, g3⟩ := open_holds (E := E) hH check h0 (by omega) (stored_back (e4 hok h0)) hx hne
  refine ⟨x, t3, by rw [f1, hx]; rfl, g1, ?_, ?_⟩
  · rw [g3.1]; exact UInt64.toNat_ofNat_of_lt' (by simpa using hn)
  · intro k
    obtain ⟨t4, o, k1, -, -, k4⟩ := get_holds hH g3 k
    rw [k1]
    rcases k4 with k4 | ⟨k4, -⟩
    · exact k4
    · cases k4

/-- Two values, with commits that fail altogether and only at the root, and a reopening without failures. -/
def demoOps : List ((Bytes → Bool) × Op) := [(fun _ => true, .append 0 (toyLeaf 100)), (fun _ => true, .commit),
  (fun _ => true, .append 1 (toyLeaf 101)), (fun x => x == (hspec toyH 64 fairVals).getD [], .commit), (fun _ => true, .get 1),
  (fun _ => false, .reopen true), (fun _ => true, .get 1)]

example : FAnswers toyHE toyRtl [] demoOps (frun toyHE (emptyTree noDisk) demoOps).2 :=
  C166_history toyHE toyH_len toyC_lawful toyRtl noDisk demoOps (by decide +kernel) fair_vals

/-- Both commits report the failure, the reopening works, and the values are there all along. -/
example : (frun toyHE (emptyTree noDisk) demoOps).2.map (fun | .done b => some (b, none) | .value v => some (true, v) | _ => none) =
    [some (true, none), some (false, none), some (true, none), some (false, none), some (true, some (toyLeaf 101)), some (true, none),
      some (true, some (toyLeaf 101))] := by decide +kernel

end Verif.HTree.Faulty

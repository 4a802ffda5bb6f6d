import Verif.HTree.Ops
import Verif.HTree.Height

/-!
# Properties of the history tree

The specification is the list of the values appended (`List Bytes`) and `hspec`, the root of the binary tree over it.
-/

namespace Verif.HTree
open Verif Verif.Merkle Verif.Trie

/-! ### What is hashed -/

/-- The inputs of the digest in `hspec H k l`. -/
def inputs (H : Bytes → Bytes) : Nat → List Bytes → List Bytes
  | 0, _ => []
  | k + 1, l =>
    if l = [] then []
    else ((hspec H k (l.take (2 ^ k))).getD [] ++ (hspec H k (l.drop (2 ^ k))).getD (nilHash H)) ::
      (inputs H k (l.take (2 ^ k)) ++ inputs H k (l.drop (2 ^ k)))

section Inputs
variable {H : Bytes → Bytes}

theorem inputs_nil (k : Nat) : inputs H k [] = [] := by cases k <;> simp [inputs]

theorem inputs_take (k : Nat) (l : List Bytes) : ∀ x ∈ inputs H k (l.take (2 ^ k)), x ∈ inputs H (k + 1) l := by
  intro x hx
  by_cases h : l = []
  · subst h; rw [List.take_nil, inputs_nil] at hx; cases hx
  · rw [inputs, if_neg h]; simp [hx]

theorem inputs_drop (k : Nat) (l : List Bytes) : ∀ x ∈ inputs H k (l.drop (2 ^ k)), x ∈ inputs H (k + 1) l := by
  intro x hx
  by_cases h : l = []
  · subst h; rw [List.drop_nil, inputs_nil] at hx; cases hx
  · rw [inputs, if_neg h]; simp [hx]

theorem take_ne {l : List Bytes} (k : Nat) (h : l ≠ []) : l.take (2 ^ k) ≠ [] := by
  intro e
  rw [List.take_eq_nil_iff] at e
  have := pow_pos2 k
  rcases e with e | e
  · omega
  · exact h e

/-- A non-empty tree has the digest of its first input as root. -/
theorem hspec_input {k : Nat} {l : List Bytes} (h : l ≠ []) :
    ∃ a, hspec H k (l.take (2 ^ k)) = some a ∧
      hspec H (k + 1) l = some (H (a ++ (hspec H k (l.drop (2 ^ k))).getD (nilHash H))) ∧
      a ++ (hspec H k (l.drop (2 ^ k))).getD (nilHash H) ∈ inputs H (k + 1) l := by
  obtain ⟨a, ha⟩ := hspec_some (H := H) (k := k) (take_ne k h)
  refine ⟨a, ha, ?_, ?_⟩
  · rw [hspec, ha]; rfl
  · rw [inputs, if_neg h, ha]; simp

theorem getD_len (hH : ∀ b, (H b).length = 32) {k : Nat} {l : List Bytes} (h32 : ∀ v ∈ l, v.length = 32) :
    ((hspec H k l).getD (nilHash H)).length = 32 := by
  cases h : hspec H k l with
  | none => exact hH _
  | some x => exact hspec_len' hH h32 h

end Inputs

/-! ### C21: the root determines the values -/

/-- C21 for the binary tree: two lists of the same length with the same root are equal, or two inputs collide. -/
theorem C21_hspec_binding (H : Bytes → Bytes) (hH : ∀ b, (H b).length = 32) : ∀ (k : Nat) (l l' : List Bytes),
    l.length = l'.length → l.length ≤ 2 ^ k → (∀ v ∈ l, v.length = 32) → (∀ v ∈ l', v.length = 32) →
    hspec H k l = hspec H k l' → l = l' ∨ Collision H (inputs H k l) (inputs H k l') := by
  intro k
  induction k with
  | zero =>
    intro l l' hlen hle _ _ he
    left
    match l, l', hlen, hle, he with
    | [], [], _, _, _ => rfl
    | [a], [b], _, _, he => simp only [hspec, List.head?_cons, Option.some.injEq] at he; rw [he]
    | _ :: _ :: _, _, _, hle, _ => simp at hle
  | succ k ih =>
    intro l l' hlen hle h32 h32' he
    by_cases h0 : l = []
    · subst h0
      left
      exact (List.length_eq_zero_iff.mp hlen.symm).symm
    · have h0' : l' ≠ [] := by intro e; subst e; exact h0 (List.length_eq_zero_iff.mp hlen)
      obtain ⟨a, ha, hr, hm⟩ := hspec_input (H := H) (k := k) h0
      obtain ⟨a', ha', hr', hm'⟩ := hspec_input (H := H) (k := k) h0'
      rw [hr, hr'] at he
      have he : H _ = H _ := Option.some.inj he
      by_cases hx : a ++ (hspec H k (l.drop (2 ^ k))).getD (nilHash H) = a' ++ (hspec H k (l'.drop (2 ^ k))).getD (nilHash H)
      · have l1 := hspec_len' hH (fun v hv => h32 v (List.mem_of_mem_take hv)) ha
        have l2 := hspec_len' hH (fun v hv => h32' v (List.mem_of_mem_take hv)) ha'
        obtain ⟨e1, e2⟩ := List.append_inj hx (l1.trans l2.symm)
        have p2 : 2 ^ (k + 1) = 2 ^ k + 2 ^ k := by rw [Nat.pow_succ]; omega
        have t1 := ih (l.take (2 ^ k)) (l'.take (2 ^ k)) (by simp [hlen]) (by simp) (fun v hv => h32 v (List.mem_of_mem_take hv))
          (fun v hv => h32' v (List.mem_of_mem_take hv)) (by rw [ha, ha', e1])
        have hd : hspec H k (l.drop (2 ^ k)) = hspec H k (l'.drop (2 ^ k)) := by
          by_cases hz : l.drop (2 ^ k) = []
          · have : l'.drop (2 ^ k) = [] := by
              rw [List.drop_eq_nil_iff] at hz ⊢; omega
            rw [hz, this]
          · have hz' : l'.drop (2 ^ k) ≠ [] := by
              intro e; apply hz
              rw [List.drop_eq_nil_iff] at e ⊢; omega
            obtain ⟨x, hx⟩ := hspec_some (H := H) (k := k) hz
            obtain ⟨y, hy⟩ := hspec_some (H := H) (k := k) hz'
            rw [hx, hy] at e2 ⊢
            exact congrArg some e2
        have t2 := ih (l.drop (2 ^ k)) (l'.drop (2 ^ k)) (by simp [hlen]) (by simp; omega) (fun v hv => h32 v (List.mem_of_mem_drop hv))
          (fun v hv => h32' v (List.mem_of_mem_drop hv)) hd
        rcases t1 with t1 | ⟨x, hx, y, hy, t⟩
        · rcases t2 with t2 | ⟨x, hx, y, hy, t⟩
          · left
            rw [← List.take_append_drop (2 ^ k) l, t1, t2, List.take_append_drop]
          · exact .inr ⟨x, inputs_drop k l x hx, y, inputs_drop k l' y hy, t⟩
        · exact .inr ⟨x, inputs_take k l x hx, y, inputs_take k l' y hy, t⟩
      · exact .inr ⟨_, hm, _, hm', hx, he⟩

/-! ### Values for which no two nodes share a storage key -/

/-- What is hashed while the values are appended one by one. -/
def AllInputs (H : Bytes → Bytes) (vals : List Bytes) (x : Bytes) : Prop := x = [] ∨ ∃ n, x ∈ inputs H 64 (vals.take n)

/-- The values are digests, no two different inputs of the digest collide, and no value is the digest of one of the
inputs. -/
structure Fair (H : Bytes → Bytes) (vals : List Bytes) : Prop where
  len : ∀ v ∈ vals, v.length = 32
  inj : ∀ x y, AllInputs H vals x → AllInputs H vals y → H x = H y → x = y
  fresh : ∀ v ∈ vals, ∀ x, AllInputs H vals x → v ≠ H x

section FairU
variable {H : Bytes → Bytes}

/-- The values in `V` are digests, no two different inputs of the digest in `I` collide, and no value is the digest of one of
the inputs; the empty input is among them. -/
structure FairOn (H : Bytes → Bytes) (V I : Bytes → Prop) : Prop where
  len : ∀ v, V v → v.length = 32
  inj : ∀ x y, I x → I y → H x = H y → x = y
  fresh : ∀ v, V v → ∀ x, I x → v ≠ H x
  nil : I []

theorem Fair.on {vals : List Bytes} (hf : Fair H vals) : FairOn H (· ∈ vals) (AllInputs H vals) :=
  ⟨hf.len, hf.inj, hf.fresh, .inl rfl⟩

/-- With such values, a root determines both the height and the values. -/
theorem hspec_inj {V I : Bytes → Prop} (hH : ∀ b, (H b).length = 32) (hf : FairOn H V I) : ∀ (k k' : Nat) (l l' : List Bytes),
    l ≠ [] → l' ≠ [] → l.length ≤ 2 ^ k → l'.length ≤ 2 ^ k' → (∀ v ∈ l, V v) → (∀ v ∈ l', V v) →
    (∀ x ∈ inputs H k l, I x) → (∀ x ∈ inputs H k' l', I x) →
    hspec H k l = hspec H k' l' → k = k' ∧ l = l' := by
  intro k
  induction k with
  | zero =>
    intro k' l l' h0 h0' hl hl' hv hv' _ hi' he
    match l, h0, hl with
    | _ :: _ :: _, _, hl => simp at hl
    | [a], _, _ =>
      cases k' with
      | zero =>
        match l', h0', hl' with
        | _ :: _ :: _, _, hl => simp at hl
        | [b], _, _ => simp only [hspec, List.head?_cons, Option.some.injEq] at he; rw [he]; exact ⟨rfl, rfl⟩
      | succ k' =>
        obtain ⟨x, _, hr, hm⟩ := hspec_input (H := H) (k := k') h0'
        rw [hr] at he
        simp only [hspec, List.head?_cons, Option.some.injEq] at he
        exact absurd he (hf.fresh a (hv a (by simp)) _ (hi' _ hm))
  | succ k ih =>
    intro k' l l' h0 h0' hl hl' hv hv' hi hi' he
    obtain ⟨a, ha, hr, hm⟩ := hspec_input (H := H) (k := k) h0
    cases k' with
    | zero =>
      match l', h0', hl' with
      | _ :: _ :: _, _, hl => simp at hl
      | [b], _, _ =>
        rw [hr] at he
        simp only [hspec, List.head?_cons, Option.some.injEq] at he
        exact absurd he.symm (hf.fresh b (hv' b (by simp)) _ (hi _ hm))
    | succ k' =>
      obtain ⟨a', ha', hr', hm'⟩ := hspec_input (H := H) (k := k') h0'
      rw [hr, hr'] at he
      have hx := hf.inj _ _ (hi _ hm) (hi' _ hm') (Option.some.inj he)
      have l1 := hspec_len' hH (fun v hv1 => hf.len v (hv v (List.mem_of_mem_take hv1))) ha
      have l2 := hspec_len' hH (fun v hv1 => hf.len v (hv' v (List.mem_of_mem_take hv1))) ha'
      obtain ⟨e1, e2⟩ := List.append_inj hx (l1.trans l2.symm)
      have p2 : 2 ^ (k + 1) = 2 ^ k + 2 ^ k := by rw [Nat.pow_succ]; omega
      have p2' : 2 ^ (k' + 1) = 2 ^ k' + 2 ^ k' := by rw [Nat.pow_succ]; omega
      obtain ⟨rfl, t1⟩ := ih k' (l.take (2 ^ k)) (l'.take (2 ^ k')) (take_ne k h0) (take_ne k' h0') (by simp) (by simp)
        (fun v hv1 => hv v (List.mem_of_mem_take hv1)) (fun v hv1 => hv' v (List.mem_of_mem_take hv1))
        (fun x hx => hi x (inputs_take k l x hx)) (fun x hx => hi' x (inputs_take k' l' x hx)) (by rw [ha, ha', e1])
      have key : ∀ m : List Bytes, m ≠ [] → (∀ v ∈ m, V v) → (∀ x ∈ inputs H k m, I x) →
          m.length ≤ 2 ^ k → hspec H k m ≠ some (nilHash H) := by
        intro m hm0 hmv hmi hml hme
        cases hk : k with
        | zero =>
          subst hk
          match m, hm0, hml with
          | _ :: _ :: _, _, hl => simp at hl
          | [b], _, _ =>
            simp only [hspec, List.head?_cons, Option.some.injEq] at hme
            exact hf.fresh b (hmv b (by simp)) [] hf.nil hme
        | succ k2 =>
          subst hk
          obtain ⟨b, hb, hr2, hm2⟩ := hspec_input (H := H) (k := k2) hm0
          rw [hr2] at hme
          have := hf.inj _ [] (hmi _ hm2) hf.nil (Option.some.inj hme)
          have l3 := hspec_len' hH (fun v hv1 => hf.len v (hmv v (List.mem_of_mem_take hv1))) hb
          have := congrArg List.length this
          simp [l3] at this
      refine ⟨rfl, ?_⟩
      by_cases hz : l.drop (2 ^ k) = []
      · by_cases hz' : l'.drop (2 ^ k) = []
        · rw [← List.take_append_drop (2 ^ k) l, t1, hz, ← hz', List.take_append_drop]
        · exfalso
          rw [hz, hspec_nil] at e2
          obtain ⟨y, hy⟩ := hspec_some (H := H) (k := k) hz'
          rw [hy] at e2
          exact key _ hz' (fun v hv1 => hv' v (List.mem_of_mem_drop hv1)) (fun x hx => hi' x (inputs_drop k l' x hx))
            (by simp; omega) (hy.trans (congrArg some e2.symm))
      · obtain ⟨x, hx⟩ := hspec_some (H := H) (k := k) hz
        rw [hx] at e2
        by_cases hz' : l'.drop (2 ^ k) = []
        · exfalso
          rw [hz', hspec_nil] at e2
          exact key _ hz (fun v hv1 => hv v (List.mem_of_mem_drop hv1)) (fun x hx => hi x (inputs_drop k l x hx))
            (by simp; omega) (hx.trans (congrArg some e2))
        · obtain ⟨y, hy⟩ := hspec_some (H := H) (k := k) hz'
          rw [hy] at e2
          obtain ⟨_, t2⟩ := ih k (l.drop (2 ^ k)) (l'.drop (2 ^ k)) hz hz' (by simp; omega) (by simp; omega)
            (fun v hv1 => hv v (List.mem_of_mem_drop hv1)) (fun v hv1 => hv' v (List.mem_of_mem_drop hv1))
            (fun x hx => hi x (inputs_drop k l x hx)) (fun x hx => hi' x (inputs_drop k l' x hx)) (by rw [hx, hy]; exact congrArg some e2)
          rw [← List.take_append_drop (2 ^ k) l, t1, t2, List.take_append_drop]

theorem hspec_ne_nil {V I : Bytes → Prop} (hH : ∀ b, (H b).length = 32) (hf : FairOn H V I) {k : Nat} {l : List Bytes} (h0 : l ≠ [])
    (hv : ∀ v ∈ l, V v) (hi : ∀ x ∈ inputs H (k + 1) l, I x) : hspec H (k + 1) l ≠ some (nilHash H) := by
  intro he
  obtain ⟨b, hb, hr2, hm2⟩ := hspec_input (H := H) (k := k) h0
  rw [hr2] at he
  have := hf.inj _ [] (hi _ hm2) hf.nil (Option.some.inj he)
  have l3 := hspec_len' hH (fun v hv1 => hf.len v (hv v (List.mem_of_mem_take hv1))) hb
  have := congrArg List.length this
  simp [l3] at this

theorem inputs_sub {K : Nat} {l : List Bytes} (hl : l.length ≤ 2 ^ K) : ∀ p : List Bool, p.length ≤ K →
    ∀ x ∈ inputs H (K - p.length) (sub K p l), x ∈ inputs H K l := by
  intro p
  induction p using List.reverseRecOn with
  | nil => intro _ x hx; rwa [sub_nil_prefix hl] at hx
  | append_singleton p b ih =>
    intro hp x hx
    rw [List.length_append, List.length_singleton] at hp hx
    have hK : K - p.length = (K - (p.length + 1)) + 1 := by omega
    refine ih (by omega) x ?_
    rw [hK]
    cases b with
    | false => rw [sub_false l (by omega)] at hx; exact inputs_take _ _ x hx
    | true => rw [sub_true l (by omega)] at hx; exact inputs_drop _ _ x hx

/-- The blocks made of such values with such inputs. -/
def BlocksOn (H : Bytes → Bytes) (V I : Bytes → Prop) (h : Nat) (l : List Bytes) : Prop :=
  l ≠ [] ∧ l.length ≤ 2 ^ (4 * h + 4) ∧ (∀ v ∈ l, V v) ∧ ∀ x ∈ inputs H (4 * h + 4) l, I x

/-- The blocks of the values appended so far. -/
def Blocks (H : Bytes → Bytes) (vals : List Bytes) : Nat → List Bytes → Prop := BlocksOn H (· ∈ vals) (AllInputs H vals)

theorem fairOn_universe {E : HEnv} {V I : Bytes → Prop} (hH : ∀ b, (E.H b).length = 32) (hf : FairOn E.H V I) :
    Universe E (BlocksOn E.H V I) where
  ne h := h.1
  vals := by
    intro h l hb v hv e
    have := hf.len v (hb.2.2.1 v hv)
    rw [e] at this
    cases this
  kid := by
    intro h l j hb hne
    refine ⟨hne, ?_, fun v hv => hb.2.2.1 v (part_mem hv), ?_⟩
    · have := part_length_le (h + 1) j l
      rwa [show 4 * (h + 1) = 4 * h + 4 by omega] at this
    · intro x hx
      refine hb.2.2.2 x (inputs_sub hb.2.1 (bits4 j) (by rw [bits4_length]; omega) x ?_)
      rw [bits4_length, show 4 * (h + 1) + 4 - 4 = 4 * h + 4 by omega]
      exact hx
  inj := by
    intro h l h' l' hb hb' he
    obtain ⟨e1, e2⟩ := hspec_inj hH hf _ _ _ _ hb.1 hb'.1 hb.2.1 hb'.2.1 hb.2.2.1 hb'.2.2.1 hb.2.2.2 hb'.2.2.2 he
    exact ⟨by omega, e2⟩
  notNil := by
    intro h l hb
    exact hspec_ne_nil hH hf hb.1 hb.2.2.1 hb.2.2.2

theorem fair_universe {E : HEnv} {vals : List Bytes} (hH : ∀ b, (E.H b).length = 32) (hf : Fair E.H vals) :
    Universe E (Blocks E.H vals) := fairOn_universe hH hf.on

theorem blocks_prefix {vals l : List Bytes} (h0 : l ≠ []) (hl : l.length ≤ 2 ^ 64) (hp : l <+: vals) : Blocks H vals 15 l := by
  refine ⟨h0, hl, fun v hv => hp.subset hv, fun x hx => .inr ⟨l.length, ?_⟩⟩
  rwa [← List.prefix_iff_eq_take.mp hp]

end FairU

/-! ### Runs -/

/-- The calls. -/
inductive Op where
  | append (key : UInt64) (v : Bytes)
  | get (key : UInt64)
  | hash
  | getProof (key : UInt64)
  | collapseBefore (key : UInt64)
  | commit
  | reopen (check : Bool)

/-- The results. -/
inductive Out where
  | done (ok : Bool)
  | value (v : Option Bytes)
  | root (r : Option Bytes)
  | proof (p : Option (Bytes × List NodeProof))
  | collapsed (r : Res Unit)

/-- One call.  `reopen` is `Commit`, `HashValue` and `NewHistoryTree` on the same storage, as `Rebase` and the users of the
tree do (`/repo/trie/historytree.go:57-91, 289-319`). -/
def step (E : HEnv) (t : Tree) : Op → Tree × Out
  | .append k v => let r := t.append E k v; (r.1, .done r.2)
  | .get k => let r := t.get E k; (r.1, .value r.2)
  | .hash => let r := t.hash E; (r.1, .root r.2)
  | .getProof k => let r := t.getProof E k; (r.1, .proof r.2)
  | .collapseBefore k => let r := t.collapseBefore E k; (r.1, .collapsed r.2)
  | .commit => let r := t.commit E; (r.1, .done r.2)
  | .reopen check =>
    let r := t.commit E
    if r.2 then
      let h := r.1.hash E
      match h.2.bind fun x => openTree E h.1.D x check with
      | none => (h.1, .done false)
      | some t' => (t', .done true)
    else (r.1, .done false)

/-- A sequence of calls. -/
def run (E : HEnv) (t : Tree) : List Op → Tree × List Out
  | [] => (t, [])
  | op :: ops => let r := step E t op; let s := run E r.1 ops; (s.1, r.2 :: s.2)

/-- The list of values after a call. -/
def specStep (vals : List Bytes) : Op → List Bytes
  | .append k v => if k.toNat = vals.length ∧ v ≠ [] then vals ++ [v] else vals
  | _ => vals

/-- The list of values after the calls. -/
def specRun (vals : List Bytes) (ops : List Op) : List Bytes := ops.foldl specStep vals

/-- `ProofChain.BigKey` (`/repo/trie/proof.go:759-766`). -/
def chainBigKey (c : List NodeProof) : Nat :=
  (c.foldl (fun (s : Nat × Nat) np => match np.childProofs with
    | none => s
    | some p => p.bigKey s.1 s.2) (0, 0)).1

/-- What is to be answered to a call when the values are `vals`. -/
def Answer (E : HEnv) (R : Rtl) (vals : List Bytes) : Op → Out → Prop
  | .append k v, o => o = .done (decide (k.toNat = vals.length ∧ v ≠ []))
  | .get k, o => o = .value vals[k.toNat]?
  | .hash, o => o = .root (some ((hspec E.H 64 vals).getD (nilHash E.H)))
  | .getProof k, o =>
    if h : k.toNat < vals.length then ∃ c, o = .proof (some (vals[k.toNat], c)) ∧ chainBigKey c = k.toNat ∧
      ((∀ v ∈ vals, v.length = 32) → chainProof E.H R c vals[k.toNat] = hspec E.H 64 vals)
    else o = .proof none
  | .collapseBefore _, o => ∃ r, o = .collapsed r ∧ r ≠ .panic
  | .commit, o => ∃ b, o = .done b ∧ ((∀ x, E.F x = false) → b = true)
  | .reopen _, o => ∃ b, o = .done b ∧ ((∀ x, E.F x = false) → b = true)

/-- All the answers. -/
def Answers (E : HEnv) (R : Rtl) (vals : List Bytes) : List Op → List Out → Prop
  | [], os => os = []
  | op :: ops, o :: os => Answer E R vals op o ∧ Answers E R (specStep vals op) ops os
  | _ :: _, [] => False

/-- The call writes the storage. -/
def Op.writes : Op → Bool
  | .commit => true
  | .reopen _ => true
  | _ => false

/-- The tree holds the values. -/
def Holds (E : HEnv) (M : Bool) (t : Tree) (vals : List Bytes) : Prop :=
  t.expecting = UInt64.ofNat vals.length ∧
    ((vals = [] ∧ t.root = .nil) ∨ HTree.Rep E t.D M 15 t.root vals)

/-- A new tree: `NewHistoryTree` without a root hash (`/repo/trie/historytree.go:57-91`). -/
def emptyTree (D : HDisk) : Tree := ⟨0, .nil, D⟩

theorem holds_empty (E : HEnv) (M : Bool) (D : HDisk) : Holds E M (emptyTree D) [] := ⟨rfl, .inl ⟨rfl, rfl⟩⟩

section Steps
variable {E : HEnv} {M : Bool}

theorem expecting_eq {t : Tree} {vals : List Bytes} (hn : vals.length < 2 ^ 64) (he : t.expecting = UInt64.ofNat vals.length)
    (k : UInt64) : k = t.expecting ↔ k.toNat = vals.length := by
  rw [he, ← UInt64.toNat_inj, UInt64.toNat_ofNat_of_lt' (by simpa using hn)]

theorem append_holds (hH : ∀ b, (E.H b).length = 32) {t : Tree} {vals : List Bytes} (hn : vals.length < 2 ^ 64)
    (hh : Holds E M t vals) (k : UInt64) (v : Bytes) :
    ∃ t', t.append E k v = (t', decide (k.toNat = vals.length ∧ v ≠ [])) ∧ Holds E M t' (specStep vals (.append k v)) ∧
      t'.D = t.D := by
  obtain ⟨he, hr⟩ := hh
  unfold Tree.append
  by_cases hk : k.toNat = vals.length
  · rw [if_neg (by rw [not_not]; exact (expecting_eq hn he k).mpr hk)]
    by_cases hv : v = []
    · rw [if_pos hv]
      refine ⟨t, by simp [hv], ?_, rfl⟩
      simp only [specStep, hv, ne_eq, not_true, and_false, if_false]
      exact ⟨he, hr⟩
    · rw [if_neg hv]
      have hpre : HTree.Rep E t.D M 15 (if t.root.isSome then t.root else newTNode false) vals ∨
          ((if t.root.isSome then t.root else newTNode false) = newTNode (decide (15 = 0)) ∧ vals = []) := by
        rcases hr with ⟨h1, h2⟩ | h1
        · right; rw [h2]; exact ⟨rfl, h1⟩
        · left
          have : t.root.isSome = true := Kid.isSome (h := 16) h1
          rw [if_pos this]; exact h1
      obtain ⟨n', g1, g2⟩ := append_spec hH v hv 15 _ vals hpre hn
      rw [heightToPrefix_eq, hk]
      simp only [g1]
      refine ⟨⟨t.expecting + 1, n', t.D⟩, by simp [hv], ?_, rfl⟩
      simp only [specStep, hk, hv, ne_eq, not_false_eq_true, and_self, if_true]
      refine ⟨?_, .inr g2⟩
      simp only [he, List.length_append, List.length_singleton, UInt64.ofNat_add]
      rfl
  · rw [if_pos (fun e => hk ((expecting_eq hn he k).mp e))]
    refine ⟨t, by simp [hk], ?_, rfl⟩
    simp only [specStep, hk, false_and, if_false]
    exact ⟨he, hr⟩

theorem get_holds (hH : ∀ b, (E.H b).length = 32) {t : Tree} {vals : List Bytes} (hh : Holds E M t vals) (k : UInt64) :
    ∃ t' o, t.get E k = (t', o) ∧ Holds E M t' vals ∧ t'.D = t.D ∧ (o = vals[k.toNat]? ∨ M = true ∧ o = none) := by
  obtain ⟨he, hr⟩ := hh
  unfold Tree.get
  rw [heightToPrefix_eq]
  rcases hr with ⟨h1, h2⟩ | h1
  · refine ⟨_, _, rfl, ⟨he, .inl ⟨h1, ?_⟩⟩, rfl, .inl ?_⟩
    · simp only [h2]; rfl
    · simp only [h2, h1]; rfl
  · obtain ⟨n', o, g1, g2, g3⟩ := get_spec hH 15 _ vals k.toNat h1 (u64_lt k)
    simp only [g1]
    exact ⟨_, _, rfl, ⟨he, .inr g2⟩, rfl, g3⟩

theorem hash_holds {t : Tree} {vals : List Bytes} (hh : Holds E M t vals) :
    ∃ t', t.hash E = (t', some ((hspec E.H 64 vals).getD (nilHash E.H))) ∧ Holds E M t' vals ∧ t'.D = t.D ∧
      (HTree.Rep E t.D M 15 t.root vals → HTree.Rep E t.D M 15 t'.root vals) := by
  obtain ⟨he, hr⟩ := hh
  unfold Tree.hash
  rcases hr with ⟨h1, h2⟩ | h1
  · rw [h2, hashNode_nil, h1, hspec_nil]
    refine ⟨_, rfl, ⟨by rw [he, h1], .inl ⟨rfl, rfl⟩⟩, rfl, ?_⟩
    intro hr
    rw [rep_eq] at hr
    exact absurd rfl hr.1
  · obtain ⟨g1, g2⟩ := hash_spec 15 _ _ h1
    simp only [g1]
    exact ⟨_, rfl, ⟨he, .inr g2⟩, rfl, fun _ => g2⟩

theorem chain_build (H : Bytes → Bytes) (R : Rtl) (L : List (Bytes × Bool)) :
    chainItems H R [newNodeProof proofMerkleOnly ⟨0, [], 0, 0⟩ none (some (build L))] = some L := by
  simp only [chainItems, NodeProof.items, newNodeProof, if_true, (rep_build L).items]
  simp

theorem chainBigKey_build (L : List (Bytes × Bool)) :
    chainBigKey [newNodeProof proofMerkleOnly ⟨0, [], 0, 0⟩ none (some (build L))] = bitsNat (L.map Prod.snd) := by
  simp only [chainBigKey, newNodeProof, List.foldl_cons, List.foldl_nil]
  refine Nat.eq_of_testBit_eq fun j => ?_
  rw [((rep_build L).bigKey 0 0).2 j, bitsNat_testBit]
  by_cases hj : j < L.length
  · simp [hj]
  · simp [hj]

theorem proof_holds (hH : ∀ b, (E.H b).length = 32) (R : Rtl) {t : Tree} {vals : List Bytes}
    (hh : Holds E false t vals) (k : UInt64) :
    Holds E false (t.getProof E k).1 vals ∧ (t.getProof E k).1.D = t.D ∧
      Answer E R vals (.getProof k) (.proof (t.getProof E k).2) := by
  obtain ⟨he, hr⟩ := hh
  unfold Tree.getProof
  rw [heightToPrefix_eq]
  rw [Answer]
  rcases hr with ⟨h1, h2⟩ | h1
  · refine ⟨⟨he, .inl ⟨h1, ?_⟩⟩, rfl, ?_⟩
    · simp only [h2]; rfl
    · rw [dif_neg (by simp [h1]), h2]; rfl
  · by_cases hk : k.toNat < vals.length
    · obtain ⟨n', items, v, g1, g2, g3, g4, g5, _, g6⟩ := proof_spec hH 15 _ vals k.toNat h1 hk
      rw [g1, dif_pos hk]
      have hv : vals[k.toNat] = v := by rw [List.getElem?_eq_getElem hk] at g3; exact Option.some.inj g3
      refine ⟨⟨he, .inr g2⟩, rfl, _, by rw [hv]; rfl, ?_, ?_⟩
      · exact (chainBigKey_build items).trans g5
      · intro h32
        have := chain_build E.H R items
        unfold build at this
        rw [chainProof, this, hv]
        exact (g6 h32).symm
    · obtain ⟨n', g1, g2⟩ := proof_absent hH 15 _ vals k.toNat h1 (by omega) (u64_lt k)
      rw [g1, dif_neg hk]
      exact ⟨⟨he, .inr g2⟩, rfl, rfl⟩

theorem collapse_holds (hH : ∀ b, (E.H b).length = 32) {t : Tree} {vals : List Bytes}
    (hh : Holds E M t vals) (k : UInt64) :
    ∃ t' r, t.collapseBefore E k = (t', r) ∧ Holds E M t' vals ∧ t'.D = t.D ∧ (M = false → r ≠ .panic) := by
  obtain ⟨he, hr⟩ := hh
  unfold Tree.collapseBefore
  simp only
  split
  · exact ⟨t, _, rfl, ⟨he, hr⟩, rfl, by simp⟩
  · rename_i hp
    rcases hr with ⟨h1, h2⟩ | h1
    · rw [h2]
      cases hq : lastNonZero (heightToPrefix k) with
      | nil => rw [hq] at hp; simp at hp
      | cons j q =>
        refine ⟨_, _, rfl, ⟨he, .inl ⟨h1, ?_⟩⟩, rfl, ?_⟩
        · simp [collapseAt, opened]
        · simp [collapseAt, opened]
    · obtain ⟨n', r, g1, g2, g3⟩ := collapse_spec hH (lastNonZero (heightToPrefix k)) 15 _ vals h1
      rw [g1]
      exact ⟨_, _, rfl, ⟨he, .inr g2⟩, rfl, g3⟩

variable {U : Nat → List Bytes → Prop}

theorem commit_holds (hH : ∀ b, (E.H b).length = 32) (hC : E.C.Lawful) (hU : Universe E U) {t : Tree} {vals : List Bytes}
    (hu : vals ≠ [] → U 15 vals) (hh : Holds E M t vals) :
    ∃ t' ok, t.commit E = (t', ok) ∧ Holds E M t' vals ∧ ((∀ x, E.F x = false) → ok = true) ∧
      (ok = true → vals ≠ [] → Stored E t'.D M 15 vals) := by
  obtain ⟨he, hr⟩ := hh
  unfold Tree.commit
  rcases hr with ⟨h1, h2⟩ | h1
  · refine ⟨_, _, rfl, ⟨he, .inl ⟨h1, ?_⟩⟩, ?_, fun _ h => absurd h1 h⟩
    · simp [h2, commitNode]
    · simp [h2, commitNode]
  · have hne : vals ≠ [] := by
      have := h1
      rw [rep_eq] at this
      exact this.1
    obtain ⟨n', D', ok, g1, g2, g3, g4, g5⟩ := commit_spec hH hC hU 15 t.D _ vals (hu hne) h1
    rw [g1]
    exact ⟨_, _, rfl, ⟨he, .inr g3⟩, g5, fun hok _ => rep_clean g3 (g4 hok)⟩

/-- Opening the tree at the root hash of stored values. -/
theorem open_holds (hH : ∀ b, (E.H b).length = 32) {D : HDisk} {vals : List Bytes} {r : Bytes} (check : Bool) (h0 : vals ≠ [])
    (hn : vals.length ≤ 2 ^ 64) (hs : Stored E D false 15 vals) (hr : hspec E.H 64 vals = some r) (hnil : r ≠ nilHash E.H) :
    ∃ t, openTree E D r check = some t ∧ t.D = D ∧ Holds E false t vals := by
  have hlen : r.length = 32 := hspec_len hH (k := 63) hr
  have hrep : HTree.Rep E D false 15 (closed r) vals := by
    rw [rep_eq]
    exact ⟨h0, hn, .inl ⟨⟨_, rfl, rfl, fun _ => rfl, r, hr, rfl⟩, hs⟩⟩
  obtain ⟨n', g1, g2⟩ := findRightmost_spec hH check 15 16 _ vals hrep (by omega)
  have h1 : 0 < vals.length := List.length_pos_iff.mpr h0
  have hlt : vals.length - 1 < 2 ^ 64 := by omega
  have htn : (UInt64.ofNat (vals.length - 1)).toNat = vals.length - 1 := UInt64.toNat_ofNat_of_lt' (by simpa using hlt)
  have hp := prefixToHeight_heightToPrefix (UInt64.ofNat (vals.length - 1))
  rw [heightToPrefix_eq, htn] at hp
  unfold openTree
  rw [if_neg (by simp [hlen, hnil])]
  simp only [g1, Option.bind_some, hp, Option.map_some]
  refine ⟨_, rfl, rfl, ?_, .inr g2⟩
  simp only
  have : UInt64.ofNat vals.length = UInt64.ofNat (vals.length - 1 + 1) := by rw [Nat.sub_add_cancel h1]
  rw [this, UInt64.ofNat_add]
  rfl

/-- One call on a tree that holds all its values. -/
theorem step_holds (hH : ∀ b, (E.H b).length = 32) (R : Rtl) {t : Tree} {vals : List Bytes} (hn : vals.length < 2 ^ 64)
    (op : Op) (hu : op.writes = true → E.C.Lawful ∧ Universe E U ∧ (vals ≠ [] → U 15 vals)) (hh : Holds E false t vals) :
    Holds E false (step E t op).1 (specStep vals op) ∧ Answer E R vals op (step E t op).2 := by
  cases op with
  | append k v =>
    obtain ⟨t', g1, g2, _⟩ := append_holds hH hn hh k v
    simp only [step, g1]
    exact ⟨g2, rfl⟩
  | get k =>
    obtain ⟨t', o, g1, g2, _, g3⟩ := get_holds hH hh k
    simp only [step, g1, Answer, specStep]
    refine ⟨g2, ?_⟩
    rcases g3 with g3 | ⟨g3, _⟩
    · rw [g3]
    · cases g3
  | hash =>
    obtain ⟨t', g1, g2, _⟩ := hash_holds hh
    simp only [step, g1]
    exact ⟨g2, rfl⟩
  | getProof k =>
    obtain ⟨g1, _, g3⟩ := proof_holds hH R hh k
    exact ⟨g1, g3⟩
  | collapseBefore k =>
    obtain ⟨t', r, g1, g2, _, g3⟩ := collapse_holds hH hh k
    simp only [step, g1, Answer, specStep]
    exact ⟨g2, r, rfl, g3 rfl⟩
  | commit =>
    obtain ⟨hC, hU, hv⟩ := hu rfl
    obtain ⟨t', ok, g1, g2, g3, _⟩ := commit_holds hH hC hU hv hh
    simp only [step, g1, Answer, specStep]
    exact ⟨g2, ok, rfl, g3⟩
  | reopen check =>
    obtain ⟨hC, hU, hv⟩ := hu rfl
    obtain ⟨t', ok, g1, g2, g3, g4⟩ := commit_holds hH hC hU hv hh
    simp only [step, g1, Answer, specStep]
    by_cases hok : ok = true
    · rw [if_pos hok]
      obtain ⟨t2, e1, e2, e3, _⟩ := hash_holds g2
      simp only [e1, Option.bind_some]
      by_cases h0 : vals = []
      · subst h0
        have : openTree E t2.D ((hspec E.H 64 []).getD (nilHash E.H)) check = some ⟨0, .nil, t2.D⟩ := by
          unfold openTree
          rw [if_pos (.inr (by rw [hspec_nil]; rfl))]
        rw [this]
        exact ⟨⟨rfl, .inl ⟨rfl, rfl⟩⟩, true, rfl, fun _ => rfl⟩
      · obtain ⟨x, hx⟩ := hspec_some (H := E.H) (k := 64) h0
        have hne : x ≠ nilHash E.H := by
          intro e
          exact hU.notNil (hv h0) (hx.trans (congrArg some e))
        have hst : Stored E t2.D false 15 vals := by rw [e3]; exact g4 hok h0
        obtain ⟨t3, f1, _, f3⟩ := open_holds hH check h0 (by omega) hst hx hne
        rw [hx, Option.getD_some, f1]
        exact ⟨f3, true, rfl, fun _ => rfl⟩
    · rw [if_neg hok]
      exact ⟨g2, false, rfl, fun hf => absurd (g3 hf) hok⟩

theorem specStep_prefix (vals : List Bytes) (op : Op) : vals <+: specStep vals op := by
  cases op with
  | append k v =>
    simp only [specStep]
    split
    · exact List.prefix_append _ _
    · exact List.prefix_refl _
  | _ => exact List.prefix_refl _

theorem specRun_prefix (ops : List Op) : ∀ vals : List Bytes, vals <+: specRun vals ops := by
  induction ops with
  | nil => exact fun vals => List.prefix_refl _
  | cons op ops ih => exact fun vals => (specStep_prefix vals op).trans (ih _)

theorem run_holds (hH : ∀ b, (E.H b).length = 32) (R : Rtl) (final : List Bytes) : ∀ (ops : List Op) (t : Tree) (vals : List Bytes),
    specRun vals ops = final → final.length < 2 ^ 64 →
    ((∃ op ∈ ops, op.writes = true) → E.C.Lawful ∧ Fair E.H final) → Holds E false t vals →
    Holds E false (run E t ops).1 final ∧ Answers E R vals ops (run E t ops).2 := by
  intro ops
  induction ops with
  | nil => intro t vals hs _ _ hh; subst hs; exact ⟨hh, rfl⟩
  | cons op ops ih =>
    intro t vals hs hn hf hh
    have hp : vals <+: final := by rw [← hs]; exact specRun_prefix (op :: ops) vals
    have hlen := hp.length_le
    have h1 := step_holds (U := Blocks E.H final) hH R (by omega : vals.length < 2 ^ 64) op (fun hw => by
      obtain ⟨hC, hF⟩ := hf ⟨op, by simp, hw⟩
      exact ⟨hC, fair_universe hH hF, fun h0 => blocks_prefix h0 (by omega) hp⟩) hh
    obtain ⟨e1, e2⟩ := ih (step E t op).1 (specStep vals op) hs hn
      (fun ⟨o, ho, hw⟩ => hf ⟨o, List.mem_cons_of_mem _ ho, hw⟩) h1.1
    exact ⟨e1, h1.2, e2⟩

end Steps

end Verif.HTree

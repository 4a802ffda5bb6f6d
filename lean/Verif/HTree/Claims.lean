import Verif.HTree.Props
import Verif.HTree.Toy

/-!
# The claims about the history tree
-/

namespace Verif.HTree
open Verif Verif.Merkle Verif.Trie

/-! ### C18: append and read -/

/-- C18: in every sequence of appends (accepted and rejected), reads, root hashes, proofs and `CollapseBefore`, the answers
are those of the list of values: `Append(k, v)` is accepted exactly if `k` is the length (and `v` not empty), `Get(k)` is the
`k`-th value, if any. -/
theorem C18_run (E : HEnv) (hH : ∀ b, (E.H b).length = 32) (R : Rtl) (D : HDisk) (ops : List Op)
    (hw : ∀ op ∈ ops, op.writes = false) (hn : (specRun [] ops).length < 2 ^ 64) :
    Answers E R [] ops (run E (emptyTree D) ops).2 :=
  (run_holds hH R _ ops (emptyTree D) [] rfl hn (fun ⟨o, ho, h⟩ => by rw [hw o ho] at h; cases h) (holds_empty E false D)).2

/-- The calls that append the values one after another, from key `i` on. -/
def appends : Nat → List Bytes → List Op
  | _, [] => []
  | i, v :: vs => .append (UInt64.ofNat i) v :: appends (i + 1) vs

theorem appends_spec : ∀ (vs a : List Bytes), (∀ v ∈ vs, v ≠ []) → a.length + vs.length < 2 ^ 64 →
    specRun a (appends a.length vs) = a ++ vs := by
  intro vs
  induction vs with
  | nil => intro a _ _; simp [appends, specRun]
  | cons v vs ih =>
    intro a hv hn
    rw [List.length_cons] at hn
    have hk : (UInt64.ofNat a.length).toNat = a.length := UInt64.toNat_ofNat_of_lt' (by change _ < 2 ^ 64; omega)
    have h1 : specStep a (.append (UInt64.ofNat a.length) v) = a ++ [v] := by
      simp only [specStep, hk]
      rw [if_pos ⟨trivial, hv v (by simp)⟩]
    have h2 := ih (a ++ [v]) (fun v hv' => hv v (by simp [hv'])) (by simp; omega)
    simp only [List.length_append, List.length_singleton] at h2
    simp only [appends, specRun, List.foldl_cons, h1]
    rw [specRun] at h2
    rw [h2, List.append_assoc]
    rfl

theorem appends_writes : ∀ (vs : List Bytes) (i : Nat), ∀ op ∈ appends i vs, op.writes = false := by
  intro vs
  induction vs with
  | nil => intro i op h; cases h
  | cons v vs ih =>
    intro i op h
    rcases List.mem_cons.mp h with rfl | h
    · rfl
    · exact ih _ op h

/-- The tree after appending the values at keys 0, 1, 2, …. -/
def appended (E : HEnv) (D : HDisk) (vs : List Bytes) : Tree := (run E (emptyTree D) (appends 0 vs)).1

theorem appended_holds (E : HEnv) (hH : ∀ b, (E.H b).length = 32) (D : HDisk) (vs : List Bytes) (hv : ∀ v ∈ vs, v ≠ [])
    (hn : vs.length < 2 ^ 64) : Holds E false (appended E D vs) vs := by
  have hs := appends_spec vs [] hv (by simpa using hn)
  exact (run_holds hH toyRtl vs (appends 0 vs) (emptyTree D) [] (by simpa using hs) hn
    (fun ⟨o, ho, h⟩ => by rw [appends_writes _ _ o ho] at h; cases h) (holds_empty E false D)).1

/-- C18: after appending `v₀ … vₙ₋₁` at keys `0 … n-1`, `Get(i)` is `vᵢ` below `n` and nothing from `n` on. -/
theorem C18_append_get (E : HEnv) (hH : ∀ b, (E.H b).length = 32) (D : HDisk) (vs : List Bytes) (hv : ∀ v ∈ vs, v ≠ [])
    (hn : vs.length < 2 ^ 64) (k : UInt64) : ((appended E D vs).get E k).2 = vs[k.toNat]? := by
  obtain ⟨t', o, g1, _, _, g3⟩ := get_holds hH (appended_holds E hH D vs hv hn) k
  rw [g1]
  rcases g3 with g3 | ⟨g3, _⟩
  · exact g3
  · cases g3

/-- C18: an append at a key other than the length fails and changes nothing. -/
theorem C18_rejected (E : HEnv) (hH : ∀ b, (E.H b).length = 32) (D : HDisk) (vs : List Bytes) (hv : ∀ v ∈ vs, v ≠ [])
    (hn : vs.length < 2 ^ 64) (k : UInt64) (v : Bytes) (hk : k.toNat ≠ vs.length) :
    (appended E D vs).append E k v = (appended E D vs, false) := by
  have hh := appended_holds E hH D vs hv hn
  unfold Tree.append
  rw [if_pos fun e => hk ((expecting_eq hn hh.1 k).mp e)]

/-- C18: the append at the length succeeds. -/
theorem C18_accepted (E : HEnv) (hH : ∀ b, (E.H b).length = 32) (D : HDisk) (vs : List Bytes) (hv : ∀ v ∈ vs, v ≠ [])
    (hn : vs.length < 2 ^ 64) (v : Bytes) (hv' : v ≠ []) :
    ((appended E D vs).append E (UInt64.ofNat vs.length) v).2 = true := by
  obtain ⟨t', g1, _⟩ := append_holds hH hn (appended_holds E hH D vs hv hn) (UInt64.ofNat vs.length) v
  have hk : (UInt64.ofNat vs.length).toNat = vs.length := UInt64.toNat_ofNat_of_lt' (by change _ < 2 ^ 64; omega)
  rw [g1]
  simp [hk, hv']

/-- C18 fails at the last key: after `2^64` values the next expected key is 0 again, so the call with key 0 is not rejected
by the check of the key. -/
theorem C18_wraps_refuted (E : HEnv) (hH : ∀ b, (E.H b).length = 32) (D : HDisk) (vs : List Bytes) (hv : ∀ v ∈ vs, v ≠ [])
    (hn : vs.length = 2 ^ 64 - 1) (v : Bytes) (hv' : v ≠ []) :
    let r := (appended E D vs).append E (UInt64.ofNat vs.length) v
    r.2 = true ∧ r.1.expecting = 0 := by
  have hlt : vs.length < 2 ^ 64 := by omega
  obtain ⟨t', g1, g2, _⟩ := append_holds hH hlt (appended_holds E hH D vs hv hlt) (UInt64.ofNat vs.length) v
  have hk : (UInt64.ofNat vs.length).toNat = vs.length := UInt64.toNat_ofNat_of_lt' (by change _ < 2 ^ 64; omega)
  simp only [g1]
  refine ⟨by simp [hk, hv'], ?_⟩
  have := g2.1
  simp only [specStep, hk, hv', ne_eq, not_false_eq_true, and_self, if_true, List.length_append, List.length_singleton] at this
  rw [this, hn]
  rfl

/-! ### C20, C101: proofs -/

/-- C20: for every key below the length `GetProof` returns the value and a chain that evaluates to the root hash; the
position bits of the chain spell the key. -/
theorem C20_proof (E : HEnv) (hH : ∀ b, (E.H b).length = 32) (R : Rtl) (D : HDisk) (vs : List Bytes)
    (h32 : ∀ v ∈ vs, v.length = 32) (hn : vs.length < 2 ^ 64) (k : UInt64) (hk : k.toNat < vs.length) :
    ∃ c, ((appended E D vs).getProof E k).2 = some (vs[k.toNat], c) ∧ chainBigKey c = k.toNat ∧
      chainProof E.H R c vs[k.toNat] = ((appended E D vs).hash E).2 ∧ chainProof E.H R c vs[k.toNat] = hspec E.H 64 vs := by
  have hv : ∀ v ∈ vs, v ≠ [] := fun v hv e => by have := h32 v hv; rw [e] at this; cases this
  have hh := appended_holds E hH D vs hv hn
  obtain ⟨_, _, g3⟩ := proof_holds hH R hh k
  simp only [Answer, dif_pos hk] at g3
  obtain ⟨c, e1, e2, e3⟩ := g3
  obtain ⟨t', f1, _⟩ := hash_holds hh
  have h0 : vs ≠ [] := by intro e; subst e; simp at hk
  obtain ⟨x, hx⟩ := hspec_some (H := E.H) (k := 64) h0
  refine ⟨c, ?_, e2, ?_, e3 h32⟩
  · exact Out.proof.inj e1
  · rw [f1, e3 h32, hx]; rfl

/-- C20: from the length on there is no proof. -/
theorem C20_no_proof (E : HEnv) (hH : ∀ b, (E.H b).length = 32) (D : HDisk) (vs : List Bytes) (hv : ∀ v ∈ vs, v ≠ [])
    (hn : vs.length < 2 ^ 64) (k : UInt64) (hk : vs.length ≤ k.toNat) : ((appended E D vs).getProof E k).2 = none := by
  obtain ⟨_, _, g3⟩ := proof_holds hH toyRtl (appended_holds E hH D vs hv hn) k
  simp only [Answer, dif_neg (by omega : ¬ k.toNat < vs.length)] at g3
  exact Out.proof.inj g3

/-- `ProofChain.HistoryProof` (`/repo/trie/proof.go:768-793`): `none` is an error, `some none` is no hash. -/
def historyProof (H : Bytes → Bytes) (R : Rtl) (c : List NodeProof) (height : UInt64) (hob : Bytes) : Option (Option Bytes) :=
  if c = [] then none
  else if height = 0xffffffffffffffff ∧ hob = [] then none
  else if height ≠ 0xffffffffffffffff ∧ chainBigKey c ≠ height.toNat then none
  else if hob ≠ [] then (chainProof H R c (toHash hob)).map some
  else some none

/-- C20: the proof of a key is accepted by `HistoryProof` with that height, or with the nil height, and yields the root. -/
theorem C20_historyProof (E : HEnv) (hH : ∀ b, (E.H b).length = 32) (R : Rtl) (D : HDisk) (vs : List Bytes)
    (h32 : ∀ v ∈ vs, v.length = 32) (hn : vs.length < 2 ^ 64) (k : UInt64) (hk : k.toNat < vs.length) :
    ∃ v c, ((appended E D vs).getProof E k).2 = some (v, c) ∧
      historyProof E.H R c k v = some ((appended E D vs).hash E).2 ∧
      historyProof E.H R c 0xffffffffffffffff v = some ((appended E D vs).hash E).2 := by
  obtain ⟨c, e1, e2, e3, _⟩ := C20_proof E hH R D vs h32 hn k hk
  have hvl := h32 vs[k.toNat] (List.getElem_mem hk)
  have hv0 : vs[k.toNat] ≠ [] := by intro e; rw [e] at hvl; cases hvl
  have hc : c ≠ [] := by
    intro e
    unfold Tree.getProof at e1
    simp only [Option.map_eq_some_iff] at e1
    obtain ⟨x, _, hx⟩ := e1
    have := congrArg Prod.snd hx
    rw [e] at this
    cases this
  have hroot : ∃ r, ((appended E D vs).hash E).2 = some r := by
    have hv : ∀ v ∈ vs, v ≠ [] := fun v hv e => by have := h32 v hv; rw [e] at this; cases this
    obtain ⟨t', f1, _⟩ := hash_holds (appended_holds E hH D vs hv hn)
    exact ⟨_, by rw [f1]⟩
  obtain ⟨r, hr⟩ := hroot
  rw [hr] at e3
  refine ⟨_, c, e1, ?_, ?_⟩
  · unfold historyProof
    rw [if_neg hc, if_neg (by simp [hv0]), if_neg (by simp [e2]), if_pos hv0, toHash_of_len hvl, e3, hr]
    rfl
  · unfold historyProof
    rw [if_neg hc, if_neg (by simp [hv0]), if_neg (by simp), if_pos hv0, toHash_of_len hvl, e3, hr]
    rfl

/-- The inputs of the digest in the evaluation of a proof. -/
def evalInputs (H : Bytes → Bytes) : List (Bytes × Bool) → Bytes → List Bytes
  | [], _ => []
  | (s, b) :: L, v =>
    (if b then s ++ v else v ++ s) :: evalInputs H L (hashPairOrder H b s v)

theorem evalInputs_append (H : Bytes → Bytes) (L L' : List (Bytes × Bool)) : ∀ v,
    evalInputs H (L ++ L') v = evalInputs H L v ++ evalInputs H L' (evalItems H L v) := by
  induction L with
  | nil => intro v; rfl
  | cons x L ih => intro v; obtain ⟨s, b⟩ := x; simp only [List.cons_append, evalInputs, ih]; rfl

theorem evalItems_len (H : Bytes → Bytes) (hH : ∀ b, (H b).length = 32) (L : List (Bytes × Bool)) (v : Bytes)
    (hv : v.length = 32) : (evalItems H L v).length = 32 := by
  induction L using List.reverseRecOn with
  | nil => exact hv
  | append_singleton L x _ =>
    rw [evalItems_append]
    simp only [evalItems, List.foldl_cons, List.foldl_nil, hashPairOrder]
    split <;> exact hH _

/-- The evaluation of a proof against the binary tree. -/
theorem proof_sound (H : Bytes → Bytes) (hH : ∀ b, (H b).length = 32) : ∀ (k : Nat) (L : List (Bytes × Bool)) (l : List Bytes)
    (v : Bytes), L.length = k → l ≠ [] → l.length ≤ 2 ^ k → (∀ x ∈ l, x.length = 32) → (∀ it ∈ L, it.1.length = 32) → v.length = 32 →
    hspec H k l = some (evalItems H L v) →
    l[bitsNat (L.map Prod.snd)]? = some v ∨ (v = nilHash H ∧ l.length ≤ bitsNat (L.map Prod.snd)) ∨
      Collision H ([] :: inputs H k l) (evalInputs H L v) := by
  intro k
  induction k with
  | zero =>
    intro L l v hL h0 hl _ _ _ he
    have hL0 : L = [] := List.length_eq_zero_iff.mp hL
    subst hL0
    match l, h0, hl with
    | [a], _, _ =>
      left
      simpa [hspec, evalItems, bitsNat] using he
    | _ :: _ :: _, _, hl => simp at hl
  | succ k ih =>
    intro L l v hL h0 hl h32 hs hv he
    obtain ⟨L, ⟨s, b⟩, rfl⟩ : ∃ L' x, L = L' ++ [x] := by
      have : L ≠ [] := by intro e; subst e; cases hL
      exact ⟨L.dropLast, L.getLast this, (List.dropLast_append_getLast this).symm⟩
    have hLk : L.length = k := by simpa using hL
    obtain ⟨a, ha, hr, hm⟩ := hspec_input (H := H) (k := k) h0
    have hal := hspec_len' hH (fun x hx => h32 x (List.mem_of_mem_take hx)) ha
    have hel := evalItems_len H hH L v hv
    have hsl : s.length = 32 := hs (s, b) (by simp)
    have p2 : 2 ^ (k + 1) = 2 ^ k + 2 ^ k := by rw [Nat.pow_succ]; omega
    rw [hr, evalItems_append] at he
    have he : H (a ++ (hspec H k (l.drop (2 ^ k))).getD (nilHash H)) = hashPairOrder H b s (evalItems H L v) := Option.some.inj he
    have hbits : bitsNat ((L ++ [(s, b)]).map Prod.snd) = bitsNat (L.map Prod.snd) + 2 ^ k * b.toNat := by
      rw [List.map_append, bitsNat_append, List.length_map, hLk]
      cases b <;> simp [bitsNat]
    have hlt : bitsNat (L.map Prod.snd) < 2 ^ k := by
      have := bitsNat_lt (L.map Prod.snd)
      rwa [List.length_map, hLk] at this
    have hinp : (if b then s ++ evalItems H L v else evalItems H L v ++ s) ∈ evalInputs H (L ++ [(s, b)]) v := by
      rw [evalInputs_append]; simp [evalInputs]
    have hsub : ∀ x ∈ evalInputs H L v, x ∈ evalInputs H (L ++ [(s, b)]) v := by
      intro x hx; rw [evalInputs_append]; simp [hx]
    have lift : ∀ m, (∀ x ∈ inputs H k m, x ∈ inputs H (k + 1) l) →
        Collision H ([] :: inputs H k m) (evalInputs H L v) →
        Collision H ([] :: inputs H (k + 1) l) (evalInputs H (L ++ [(s, b)]) v) := by
      rintro m hm ⟨x, hx, y, hy, t⟩
      refine ⟨x, ?_, y, hsub y hy, t⟩
      rcases List.mem_cons.mp hx with rfl | hx
      · simp
      · exact List.mem_cons_of_mem _ (hm x hx)
    rw [hbits]
    by_cases hx : a ++ (hspec H k (l.drop (2 ^ k))).getD (nilHash H) = if b then s ++ evalItems H L v else evalItems H L v ++ s
    · cases b with
      | false =>
        simp only [Bool.false_eq_true, if_false] at hx
        obtain ⟨e1, _⟩ := List.append_inj hx (hal.trans hel.symm)
        have := ih L (l.take (2 ^ k)) v hLk (take_ne k h0) (by simp) (fun x hx => h32 x (List.mem_of_mem_take hx))
          (fun it hit => hs it (by simp [hit])) hv (by rw [ha, e1])
        simp only [Bool.toNat_false, Nat.mul_zero, Nat.add_zero]
        rcases this with t | ⟨t1, t2⟩ | t
        · left
          rwa [List.getElem?_take_of_lt hlt] at t
        · refine .inr (.inl ⟨t1, ?_⟩)
          rw [List.length_take] at t2
          omega
        · exact .inr (.inr (lift _ (inputs_take k l) t))
      | true =>
        simp only [if_true] at hx
        obtain ⟨_, e2⟩ := List.append_inj hx (hal.trans hsl.symm)
        simp only [Bool.toNat_true, Nat.mul_one]
        by_cases hz : l.drop (2 ^ k) = []
        · have hle := List.drop_eq_nil_iff.mp hz
          rw [hz, hspec_nil] at e2
          rcases List.eq_nil_or_concat L with hLn | ⟨L1, x1, hL1⟩
          · subst hLn
            exact .inr (.inl ⟨e2.symm, by omega⟩)
          · refine .inr (.inr ?_)
            obtain ⟨s1, b1⟩ := x1
            rw [List.concat_eq_append] at hL1
            have hmem : (if b1 then s1 ++ evalItems H L1 v else evalItems H L1 v ++ s1) ∈ evalInputs H L v := by
              rw [hL1, evalInputs_append]; simp [evalInputs]
            have hs1 : s1.length = 32 := hs (s1, b1) (by simp [hL1])
            refine ⟨[], by simp, _, hsub _ hmem, ?_, ?_⟩
            · intro e
              have := congrArg List.length e
              cases b1 <;> simp [hs1] at this <;> omega
            · rw [hL1, evalItems_append] at e2
              have : nilHash H = hashPairOrder H b1 s1 (evalItems H L1 v) := e2
              rw [nilHash] at this
              rw [this, hashPairOrder]
              cases b1 <;> rfl
        · obtain ⟨x, hx2⟩ := hspec_some (H := H) (k := k) hz
          rw [hx2] at e2
          have := ih L (l.drop (2 ^ k)) v hLk hz (by simp; omega) (fun x hx => h32 x (List.mem_of_mem_drop hx))
            (fun it hit => hs it (by simp [hit])) hv (by rw [hx2]; exact congrArg some e2)
          rcases this with t | ⟨t1, t2⟩ | t
          · left
            rw [List.getElem?_drop] at t
            rwa [Nat.add_comm]
          · refine .inr (.inl ⟨t1, ?_⟩)
            rw [List.length_drop] at t2
            omega
          · exact .inr (.inr (lift _ (inputs_drop k l) t))
    · refine .inr (.inr ⟨_, List.mem_cons_of_mem _ hm, _, hinp, hx, ?_⟩)
      rw [he, hashPairOrder]
      cases b <;> rfl

/-- The chain made of these sibling hashes, as `GetProof` makes it (`/repo/trie/historytree.go:459-468`). -/
def chainOf (L : List (Bytes × Bool)) : List NodeProof :=
  [newNodeProof proofMerkleOnly ⟨0, [], 0, 0⟩ none (some (build L))]

/-- C101, for chains of exactly 64 elements: what such a chain (of one Merkle proof) proves against the root of the tree is the value at the
position its bits spell, or it is the digest of nothing at a position not yet used, or a collision is exhibited.
Missing: chains of other lengths, see `C101_inner_node_refuted`. -/
theorem C101_sound_partial (E : HEnv) (hH : ∀ b, (E.H b).length = 32) (R : Rtl) (D : HDisk) (vs : List Bytes) (h0 : vs ≠ [])
    (h32 : ∀ v ∈ vs, v.length = 32) (hn : vs.length < 2 ^ 64) (L : List (Bytes × Bool))
    (h64 : L.length = 64) (hs : ∀ it ∈ L, it.1.length = 32)
    (height : UInt64) (hh : height ≠ 0xffffffffffffffff) (v : Bytes) (hv : v.length = 32)
    (hacc : historyProof E.H R (chainOf L) height v = some ((appended E D vs).hash E).2) :
    vs[height.toNat]? = some v ∨ (v = nilHash E.H ∧ vs.length ≤ height.toNat) ∨
      Collision E.H ([] :: inputs E.H 64 vs) (evalInputs E.H L v) := by
  have hvn : ∀ v ∈ vs, v ≠ [] := fun v hv e => by have := h32 v hv; rw [e] at this; cases this
  obtain ⟨t', f1, _⟩ := hash_holds (appended_holds E hH D vs hvn hn)
  obtain ⟨x, hx⟩ := hspec_some (H := E.H) (k := 64) h0
  rw [f1, hx] at hacc
  have hv0 : v ≠ [] := by intro e; rw [e] at hv; cases hv
  unfold historyProof chainOf at hacc
  split at hacc
  · cases hacc
  · split at hacc
    · cases hacc
    · split at hacc
      · cases hacc
      · rename_i hb
        have hkey : chainBigKey (chainOf L) = height.toNat := by
          by_contra hne
          exact hb ⟨hh, hne⟩
        rw [toHash_of_len hv, chainProof, chain_build] at hacc
        simp only [Option.map_some, Option.getD_some, Option.some.injEq] at hacc
        rw [← hkey, chainOf, chainBigKey_build]
        exact proof_sound E.H hH 64 L vs v h64 h0 (by omega) h32 hs hv (by rw [hx, hacc])

/-! ### C21: the root determines the values -/

/-- C21: two history trees with the same number of 32-byte values and the same root hash hold the same values, or two
different inputs of the digest collide. -/
theorem C21_root_binding (E : HEnv) (hH : ∀ b, (E.H b).length = 32) (D D' : HDisk) (vs vs' : List Bytes)
    (hlen : vs.length = vs'.length) (hn : vs.length < 2 ^ 64) (h32 : ∀ v ∈ vs, v.length = 32) (h32' : ∀ v ∈ vs', v.length = 32)
    (hr : ((appended E D vs).hash E).2 = ((appended E D' vs').hash E).2) :
    vs = vs' ∨ Collision E.H (inputs E.H 64 vs) (inputs E.H 64 vs') := by
  have hv : ∀ v ∈ vs, v ≠ [] := fun v hv e => by have := h32 v hv; rw [e] at this; cases this
  have hv' : ∀ v ∈ vs', v ≠ [] := fun v hv e => by have := h32' v hv; rw [e] at this; cases this
  obtain ⟨_, f1, _⟩ := hash_holds (appended_holds E hH D vs hv hn)
  obtain ⟨_, f2, _⟩ := hash_holds (appended_holds E hH D' vs' hv' (by omega))
  rw [f1, f2] at hr
  by_cases h0 : vs = []
  · subst h0
    left
    exact (List.length_eq_zero_iff.mp hlen.symm).symm
  · have h0' : vs' ≠ [] := by intro e; subst e; exact h0 (List.length_eq_zero_iff.mp hlen)
    obtain ⟨x, hx⟩ := hspec_some (H := E.H) (k := 64) h0
    obtain ⟨y, hy⟩ := hspec_some (H := E.H) (k := 64) h0'
    rw [hx, hy] at hr
    exact C21_hspec_binding E.H hH 64 vs vs' hlen (by omega) h32 h32' (by rw [hx, hy]; exact hr)

/-! ### C19, C97: storage -/

/-- C97: in every sequence of calls, including `Commit` and reopening from the storage, the answers are those of the list of
values, if the digest has no collision among its inputs and no value is the digest of one of them. -/
theorem C97_run (E : HEnv) (hH : ∀ b, (E.H b).length = 32) (hC : E.C.Lawful) (R : Rtl) (D : HDisk) (ops : List Op)
    (hn : (specRun [] ops).length < 2 ^ 64) (hf : Fair E.H (specRun [] ops)) :
    Answers E R [] ops (run E (emptyTree D) ops).2 :=
  (run_holds hH R _ ops (emptyTree D) [] rfl hn (fun _ => ⟨hC, hf⟩) (holds_empty E false D)).2

/-- C19: the next key recovered when a stored tree is opened at its root hash is the number of values (for at most
`2^64 - 1` values), with or without the check for preceding gaps. -/
theorem C19_reopened_expecting (E : HEnv) (hH : ∀ b, (E.H b).length = 32) (hC : E.C.Lawful) (hF : ∀ x, E.F x = false) (D : HDisk)
    (vs : List Bytes) (hn : vs.length < 2 ^ 64) (hf : Fair E.H vs) (check : Bool) :
    ∃ t, step E (appended E D vs) (.reopen check) = (t, .done true) ∧ t.expecting.toNat = vs.length ∧
      (vs ≠ [] → ∃ r, ((appended E D vs).hash E).2 = some r ∧
        openTree E ((appended E D vs).commit E).1.D r check = some t) := by
  have hv : ∀ v ∈ vs, v ≠ [] := fun v hv e => by have := hf.len v hv; rw [e] at this; cases this
  have hh := appended_holds E hH D vs hv hn
  have h1 := step_holds (U := Blocks E.H vs) hH toyRtl hn (.reopen check)
    (fun _ => ⟨hC, fair_universe hH hf, fun h0 => blocks_prefix h0 (by omega) (List.prefix_refl _)⟩) hh
  obtain ⟨g1, b, g2, g3⟩ := h1
  have hb := g3 hF
  subst hb
  have htn : (UInt64.ofNat vs.length).toNat = vs.length := UInt64.toNat_ofNat_of_lt' (by simpa using hn)
  refine ⟨(step E (appended E D vs) (.reopen check)).1, Prod.ext rfl g2, ?_, ?_⟩
  · rw [g1.1]; exact htn
  · intro h0
    obtain ⟨t', ok, e1, e2, e3, e4⟩ := commit_holds hH hC (fair_universe hH hf)
      (fun h0 => blocks_prefix h0 (by omega) (List.prefix_refl _)) hh
    obtain ⟨t2, f1, _⟩ := hash_holds hh
    obtain ⟨t3, f3, f4, f5, _⟩ := hash_holds e2
    refine ⟨_, by rw [f1], ?_⟩
    have hok := e3 hF
    subst hok
    simp only [step, e1, if_true, f3, Option.bind_some] at g2 ⊢
    rw [f5] at g2 ⊢
    cases ho : openTree E t'.D ((hspec E.H 64 vs).getD (nilHash E.H)) check with
    | none => rw [ho] at g2; cases g2
    | some t4 => rfl

/-! ### Examples -/

def noDisk : HDisk := fun _ => none

/-- Three values. -/
def demoVals : List Bytes := [toyLeaf 100, toyLeaf 101, toyLeaf 102]

example : ((appended toyHE noDisk demoVals).get toyHE 1).2 = some (toyLeaf 101) := by decide +kernel

example : ((appended toyHE noDisk demoVals).get toyHE 3).2 = none := by decide +kernel

example : ((appended toyHE noDisk demoVals).append toyHE 2 (toyLeaf 7)).2 = false := by decide +kernel

example : ((appended toyHE noDisk demoVals).append toyHE 3 (toyLeaf 7)).2 = true := by decide +kernel

example : ((appended toyHE noDisk demoVals).hash toyHE).2 = hspec toyH 64 demoVals := by decide +kernel

example : (((appended toyHE noDisk demoVals).getProof toyHE 2).2.map fun r =>
    (r.1, chainBigKey r.2, chainProof toyH toyRtl r.2 r.1 = hspec toyH 64 demoVals)) = some (toyLeaf 102, 2, True) := by
  have h : (((appended toyHE noDisk demoVals).getProof toyHE 2).2.map fun r =>
    (r.1, chainBigKey r.2, decide (chainProof toyH toyRtl r.2 r.1 = hspec toyH 64 demoVals))) = some (toyLeaf 102, 2, true) := by
    decide +kernel
  cases hg : ((appended toyHE noDisk demoVals).getProof toyHE 2).2 with
  | none => rw [hg] at h; cases h
  | some r => rw [hg] at h; simpa using h

/-- Two values for which the assumption of C97 and C19 holds. -/
def fairVals : List Bytes := [toyLeaf 100, toyLeaf 101]

/-- Everything hashed while they are appended. -/
def fairInputs : List Bytes := [] :: (inputs toyH 64 (fairVals.take 1) ++ inputs toyH 64 (fairVals.take 2))

/-- The digests, as numbers. -/
def fairDigests : List Nat :=
    [1, 462986, 568423, 868069, 670514, 752901, 851281, 293383, 914662, 149105, 677257, 211083, 770881, 801769,
    544965, 638338, 900237, 895170, 504895, 847679, 782280, 761258, 260302, 143464, 977330, 158515, 122978, 552985,
    717477, 26913, 466019, 537379, 378693, 96870, 545235, 83644, 539164, 378227, 765341, 405455, 694367, 615581,
    74803, 635590, 679105, 281189, 921767, 774703, 83122, 811570, 809634, 831428, 435261, 749331, 852213, 956447,
    194219, 927665, 524423, 817931, 30380, 254469, 371318, 25966, 500440, 3476, 259812, 927908, 225199, 392965,
    465134, 688871, 173317, 846847, 469331, 533153, 882879, 22388, 873364, 459047, 727435, 991263, 289892, 242182,
    702818, 653711, 73252, 755323, 231039, 839621, 470097, 915027, 177021, 615067, 975220, 271111, 537282, 889084,
    496960, 816137, 449337, 231369, 494996, 139897, 838765, 273121, 74571, 423325, 759730, 310561, 157234, 688020,
    743849, 758966, 835692, 164119, 543365, 36513, 76957, 477044, 887443, 801591, 821763, 846749, 26218, 782728,
    929769, 690821, 500540]

theorem fair_digests : fairInputs.map (fun x => beNat (toyH x)) = fairDigests := by decide +kernel

theorem fair_vals : Fair toyH fairVals := by
  have hall : ∀ x, AllInputs toyH fairVals x → x ∈ fairInputs := by
    rintro x (rfl | ⟨n, hn⟩)
    · simp [fairInputs]
    · match n, hn with
      | 0, hn => rw [List.take_zero, inputs_nil] at hn; cases hn
      | 1, hn => simp only [fairInputs, List.mem_cons, List.mem_append]; exact .inr (.inl hn)
      | n + 2, hn =>
        have : fairVals.take (n + 2) = fairVals.take 2 := by simp [fairVals]
        rw [this] at hn
        simp only [fairInputs, List.mem_cons, List.mem_append]
        exact .inr (.inr hn)
  have hnd : fairDigests.Nodup := by decide +kernel
  rw [← fair_digests] at hnd
  refine ⟨by decide +kernel, ?_, ?_⟩
  · intro x y hx hy he
    exact List.inj_on_of_nodup_map hnd (hall x hx) (hall y hy) (congrArg beNat he)
  · intro v hv x hx he
    have h1 : beNat v ∈ fairDigests := by
      rw [← fair_digests, List.mem_map]
      exact ⟨x, hall x hx, by rw [he]⟩
    have h2 : ∀ v ∈ fairVals, beNat v ∉ fairDigests := by decide +kernel
    exact h2 v hv h1

/-- C19 on these values. -/
example : ∃ t, step toyHE (appended toyHE noDisk fairVals) (.reopen true) = (t, .done true) ∧ t.expecting.toNat = 2 ∧
    (fairVals ≠ [] → ∃ r, ((appended toyHE noDisk fairVals).hash toyHE).2 = some r ∧
      openTree toyHE ((appended toyHE noDisk fairVals).commit toyHE).1.D r true = some t) :=
  C19_reopened_expecting toyHE toyHE_len toyC_lawful (fun _ => rfl) noDisk fairVals (by decide) fair_vals true

example : (run toyHE (emptyTree noDisk) [.append 0 (toyLeaf 100), .append 1 (toyLeaf 101), .reopen true,
    .append 2 (toyLeaf 102), .commit, .get 1, .reopen false, .get 0]).1.expecting = 3 := by decide +kernel

/-! ### Where the claims fail -/

/-- The values 100 … 114, the digest of nothing, and again 100 … 114. -/
def clashVals : List Bytes :=
  (List.range 15).map (fun i => toyLeaf (100 + i)) ++ [nilHash toyH] ++ (List.range 15).map fun i => toyLeaf (100 + i)

/-- C97 fails without the assumption on the values: the first 16 values and the last 15 make two nodes with the same hash,
the later one replaces the earlier one in the storage, and value 15 is lost. -/
theorem C97_clash_refuted :
    ((appended toyHE noDisk clashVals).get toyHE 15).2 = some (nilHash toyH) ∧
    ((step toyHE (appended toyHE noDisk clashVals) (.reopen false)).1.get toyHE 15).2 = none := by
  decide +kernel

/-- C21 fails for values of other lengths than 32. -/
theorem C21_short_values_refuted (E : HEnv) :
    hspec E.H 64 [[1, 2], [3]] = hspec E.H 64 [[1], [2, 3]] ∧ ([[1, 2], [3]] : List Bytes) ≠ [[1], [2, 3]] := by
  refine ⟨?_, by decide⟩
  have h1 : hspec E.H 1 [[1, 2], [3]] = hspec E.H 1 [[1], [2, 3]] := rfl
  have hs : ∀ (k : Nat) (a b : Bytes), 1 ≤ k → hspec E.H (k + 1) [a, b] =
      (hspec E.H k [a, b]).map fun x => hashPair E.H x (nilHash E.H) := by
    intro k a b hk
    have h2 : 2 ≤ 2 ^ k := by
      obtain ⟨m, rfl⟩ : ∃ m, k = m + 1 := ⟨k - 1, by omega⟩
      have := pow_pos2 m
      rw [Nat.pow_succ]; omega
    rw [hspec, List.take_of_length_le (by simpa using h2), List.drop_eq_nil_of_le (by simpa using h2), hspec_nil]
    rfl
  have : ∀ k, hspec E.H (k + 1) [[1, 2], [3]] = hspec E.H (k + 1) [[1], [2, 3]] := by
    intro k
    induction k with
    | zero => exact h1
    | succ k ih => rw [hs (k + 1) _ _ (by omega), hs (k + 1) _ _ (by omega), ih]
  exact this 63

/-- Trees of different lengths may have the same root: a value that is the digest of nothing looks like an unused slot. -/
theorem C21_other_length_refuted :
    ((appended toyHE noDisk [toyLeaf 100]).hash toyHE).2 =
      ((appended toyHE noDisk [toyLeaf 100, nilHash toyH]).hash toyHE).2 := by
  decide +kernel

/-- C20 fails for values of other lengths than 32: the proof is evaluated on the value padded to 32 bytes. -/
theorem C20_short_value_refuted :
    (((appended toyHE noDisk [[1, 2]]).getProof toyHE 0).2.map fun r => historyProof toyH toyRtl r.2 0 r.1) ≠
      some (some ((appended toyHE noDisk [[1, 2]]).hash toyHE).2) := by
  decide +kernel

/-- C101 fails for shorter chains: `HistoryProof` accepts the digest of an inner node as the value at a height. -/
theorem C101_inner_node_refuted :
    let t := appended toyHE noDisk demoVals
    let inner := toyH (toyLeaf 100 ++ toyLeaf 101)
    ∃ L : List (Bytes × Bool), historyProof toyH toyRtl (chainOf L) 0 inner = some (t.hash toyHE).2 ∧
      (t.get toyHE 0).2 ≠ some inner ∧ L.length = 63 := by
  refine ⟨((((appended toyHE noDisk demoVals).getProof toyHE 0).2.bind fun r => chainItems toyH toyRtl r.2).getD []).tail, ?_⟩
  decide +kernel

/-- C101 fails at unused positions: the digest of nothing is accepted as the value there. -/
theorem C101_unused_refuted :
    let t := appended toyHE noDisk [toyLeaf 100]
    ∃ L : List (Bytes × Bool), historyProof toyH toyRtl (chainOf L) 1 (nilHash toyH) = some (t.hash toyHE).2 ∧
      (t.get toyHE 1).2 = none ∧ L.length = 64 := by
  refine ⟨(toyLeaf 100, true) ::
    ((((appended toyHE noDisk [toyLeaf 100]).getProof toyHE 0).2.bind fun r => chainItems toyH toyRtl r.2).getD []).tail, ?_⟩
  decide +kernel

end Verif.HTree

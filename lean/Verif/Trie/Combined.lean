import Verif.Sorted
import Verif.Merkle.Props
import Verif.Trie.Codec
import Verif.Trie.Hash

/-!
# The trie of tries (`/repo/trie/combinedtrie.go`): C81, C103, C104, C105

Sub-tries are pointers of an arbitrary type `P`.  What a sub-trie hashes to is given at each call (`hv`), so the sub-tries may
change in any way between the calls; the nil pointer is a pointer whose `HashValue` panics.

Simplifications: the lock is omitted; the Go map is a function; go-rtl is the parameter `Rtl`, and a decoding error at the
end of truncated bytes, which the code takes as the end of the list, is an error like any other.
-/

namespace Verif.Combined
open Verif Verif.Merkle Verif.Trie

/-- `SmallCombinedTrie` (`/repo/trie/combinedtrie.go:31-37`). -/
structure Comb (P : Type) where
  keys : List Bytes
  vm : Bytes → Option P

/-- `NewCombinedTrie` (`/repo/trie/combinedtrie.go:72-78`). -/
def new (P : Type) : Comb P := ⟨[], fun _ => none⟩

variable {P : Type}

/-- `addKey` (`/repo/trie/combinedtrie.go:80-83`). -/
def addKey (ks : List Bytes) (k : Bytes) : List Bytes := sortCmp bytesCompare (ks ++ [k])

/-- `deleteKey` (`/repo/trie/combinedtrie.go:85-91`). -/
def deleteKey (ks : List Bytes) (k : Bytes) : Res (List Bytes) :=
  let i := lowerBound bytesCompare ks k
  match ks[i]? with
  | none => .panic
  | some x => .ok (if k = x then ks.take i ++ ks.drop (i + 1) else ks)

/-- `Get` (`/repo/trie/combinedtrie.go:141-152`); a nil key is `none`. -/
def Comb.get (c : Comb P) : Option Bytes → Option P
  | none => none
  | some k => c.vm k

/-- `Put` (`/repo/trie/combinedtrie.go:154-172`); a value that is not a `*Trie` is `none`. -/
def Comb.put (c : Comb P) (k : Option Bytes) (v : Option P) : Comb P × Bool :=
  match k, v with
  | some k, some t =>
    (⟨if (c.vm k).isSome then c.keys else addKey c.keys k, fun x => if x = k then some t else c.vm x⟩, true)
  | _, _ => (c, false)

/-- `Delete` (`/repo/trie/combinedtrie.go:178-192`). -/
def Comb.delete (c : Comb P) (k : Option Bytes) : Res (Comb P × Option P) :=
  match k with
  | none => .ok (c, none)
  | some k =>
    match c.vm k with
    | none => .ok (c, none)
    | some t =>
      match deleteKey c.keys k with
      | .ok ks => .ok (⟨ks, fun x => if x = k then none else c.vm x⟩, some t)
      | .err => .err
      | .panic => .panic

/-- The loop of `computeHash` (`/repo/trie/combinedtrie.go:97-108`). -/
def hashes (hv : P → Res Bytes) (vm : Bytes → Option P) : List Bytes → Res (List Bytes)
  | [] => .ok []
  | k :: ks =>
    match vm k with
    | none => hashes hv vm ks
    | some t =>
      match hv t with
      | .ok h =>
        match hashes hv vm ks with
        | .ok hs => .ok (h :: hs)
        | .err => .err
        | .panic => .panic
      | .err => .err
      | .panic => .panic

/-- `computeHash` without proof (`/repo/trie/combinedtrie.go:93-125, 135-139`). -/
def Comb.hash (H : Bytes → Bytes) (hv : P → Res Bytes) (c : Comb P) : Res Bytes :=
  if c.keys = [] then .ok (nilHash H)
  else
    match hashes hv c.vm c.keys with
    | .ok hs => .ok (merkleHashComplete H hs 0 none).1
    | .err => .err
    | .panic => .panic

/-- `GetProof` (`/repo/trie/combinedtrie.go:318-356`); `none` is `ok == false`. -/
def Comb.getProof (H : Bytes → Bytes) (hv : P → Res Bytes) (c : Comb P) (k : Option Bytes) : Res (Option (Option P × List NodeProof)) :=
  match k with
  | none => .ok none
  | some k =>
    let i := c.keys.findIdx (· == k)
    if i < c.keys.length then
      match hashes hv c.vm c.keys with
      | .ok hs =>
        .ok (some (c.vm k, [newNodeProof proofMerkleOnly ⟨0, [], 0, 0⟩ none (merkleHashComplete H hs i (some newProofs)).2]))
      | .err => .ok none
      | .panic => .panic
    else .ok none

/-! ### The iterator -/

/-- `Next` (`/repo/trie/combinedtrie.go:46-59`); the position is `pos + 1`. -/
def next (c : Comb P) (ks : List Bytes) (p : Nat) : Nat × Bool :=
  if h : p < ks.length then
    if (c.get (some ks[p])).isSome then (p + 1, true) else next c ks (p + 1)
  else (p, false)
  termination_by ks.length - p

/-- `Current` (`/repo/trie/combinedtrie.go:61-70`). -/
def current (c : Comb P) (ks : List Bytes) (p : Nat) : Option (Bytes × P) :=
  match p with
  | 0 => none
  | p + 1 =>
    match ks[p]? with
    | none => none
    | some k => (c.get (some k)).map fun t => (k, t)

/-- `for it.Next() { it.Current() }`, at most `f` times. -/
def walk (c : Comb P) (ks : List Bytes) : Nat → Nat → List (Option (Bytes × P))
  | 0, _ => []
  | f + 1, p => if (next c ks p).2 then current c ks (next c ks p).1 :: walk c ks f (next c ks p).1 else []

/-! ### Storage -/

/-- `rtl.Encode` of each key and each hash (`/repo/trie/combinedtrie.go:239-244`). -/
def encPairs (R : Rtl) : List (Bytes × Bytes) → Bytes
  | [] => []
  | (k, h) :: l => R.enc k ++ R.enc h ++ encPairs R l

/-- The reading loop of `loadRoot` (`/repo/trie/combinedtrie.go:272-286`), for at most `f` pairs. -/
def decPairs (R : Rtl) : Nat → Bytes → Option (List (Bytes × Bytes))
  | _, [] => some []
  | 0, _ :: _ => none
  | f + 1, b =>
    match R.dec b with
    | none => none
    | some (k, r) =>
      match R.dec r with
      | none => none
      | some (h, r') => (decPairs R f r').map ((k, h) :: ·)

/-- The pairs written by `saveRoot` (`/repo/trie/combinedtrie.go:229-245`). -/
def pairs (hv : P → Res Bytes) (vm : Bytes → Option P) : List Bytes → Res (List (Bytes × Bytes))
  | [] => .ok []
  | k :: ks =>
    match vm k with
    | none => pairs hv vm ks
    | some t =>
      match hv t with
      | .ok h =>
        match pairs hv vm ks with
        | .ok hs => .ok ((k, h) :: hs)
        | .err => .err
        | .panic => .panic
      | .err => .err
      | .panic => .panic

/-- `saveRoot` (`/repo/trie/combinedtrie.go:224-255`) with an adapter whose `Save` succeeds. -/
def Comb.saveRoot (H : Bytes → Bytes) (R : Rtl) (hv : P → Res Bytes) (c : Comb P) (D : Bytes → Option Bytes) :
    Res (Bytes → Option Bytes) :=
  match pairs hv c.vm c.keys with
  | .ok l =>
    match c.hash H hv with
    | .ok h => .ok fun k => if k = h then some (encPairs R l) else D k
    | .err => .err
    | .panic => .panic
  | .err => .err
  | .panic => .panic

/-- The loop of `loadRoot` (`/repo/trie/combinedtrie.go:287-301`); `mk` opens a trie at a hash. -/
def loadLoop (mk : Bytes → P) : List (Bytes × Bytes) → Comb P → Comb P
  | [], c => c
  | (k, h) :: l, c =>
    if (c.vm k).isSome then loadLoop mk l c
    else loadLoop mk l ⟨c.keys ++ [k], fun x => if x = k then some (mk h) else c.vm x⟩

/-- `InitTrie` (`/repo/trie/combinedtrie.go:258-315`); `none` is an error. -/
def Comb.initTrie (R : Rtl) (mk : Bytes → P) (c : Comb P) (D : Bytes → Option Bytes) (root : Option Bytes) : Option (Comb P) :=
  match root with
  | none => none
  | some r =>
    let v := (D r).getD []
    if v = [] then none
    else (decPairs R v.length v).map fun l => let c' := loadLoop mk l c; { c' with keys := sortCmp bytesCompare c'.keys }

/-! ### Specification -/

/-- The calls that write. -/
inductive W (P : Type) where
  | put (k : Option Bytes) (v : Option P)
  | delete (k : Option Bytes)

/-- What they return. -/
inductive Ret (P : Type) where
  | put (ok : Bool)
  | delete (old : Option P)

/-- One call. -/
def step (c : Comb P) : W P → Res (Comb P × Ret P)
  | .put k v => .ok ((c.put k v).1, .put (c.put k v).2)
  | .delete k =>
    match c.delete k with
    | .ok (c', o) => .ok (c', .delete o)
    | .err => .err
    | .panic => .panic

/-- A history. -/
def run (c : Comb P) : List (W P) → Res (Comb P × List (Ret P))
  | [] => .ok (c, [])
  | w :: ws =>
    match step c w with
    | .ok (c', r) =>
      match run c' ws with
      | .ok (c'', rs) => .ok (c'', r :: rs)
      | .err => .err
      | .panic => .panic
    | .err => .err
    | .panic => .panic

/-- The map after a call, and the result. -/
def specStep (m : Bytes → Option P) : W P → (Bytes → Option P) × Ret P
  | .put (some k) (some t) => (fun x => if x = k then some t else m x, .put true)
  | .put _ _ => (m, .put false)
  | .delete (some k) => (fun x => if x = k then none else m x, .delete (m k))
  | .delete none => (m, .delete none)

/-- The map after a history, and the results. -/
def specRun (m : Bytes → Option P) : List (W P) → (Bytes → Option P) × List (Ret P)
  | [] => (m, [])
  | w :: ws => ((specRun (specStep m w).1 ws).1, (specStep m w).2 :: (specRun (specStep m w).1 ws).2)

/-- The keys are the sorted domain of the map. -/
structure Inv (c : Comb P) : Prop where
  sorted : StrictSorted bytesCompare c.keys
  dom : ∀ k, k ∈ c.keys ↔ (c.vm k).isSome

theorem inv_new : Inv (new P) := ⟨List.Pairwise.nil, fun k => by simp [new]⟩

theorem deleteKey_spec {ks : List Bytes} (hs : StrictSorted bytesCompare ks) {k : Bytes} (hk : k ∈ ks) :
    ∃ ks', deleteKey ks k = .ok ks' ∧ StrictSorted bytesCompare ks' ∧ ∀ x, x ∈ ks' ↔ x ∈ ks ∧ x ≠ k := by
  have hi := (lowerBound_mem bytesCompare_lawful hs k).mpr hk
  generalize hI : lowerBound bytesCompare ks k = i at hi
  have hlt : i < ks.length := (List.getElem?_eq_some_iff.mp hi).1
  have hget : ks[i] = k := (List.getElem?_eq_some_iff.mp hi).2
  have hdrop : ks = ks.take i ++ k :: ks.drop (i + 1) := by
    conv_lhs => rw [← List.take_append_drop i ks, List.drop_eq_getElem_cons hlt, hget]
  have hsub : (ks.take i ++ ks.drop (i + 1)).Sublist ks := by
    conv_rhs => rw [hdrop]
    exact List.Sublist.append (List.Sublist.refl _) (List.sublist_cons_self _ _)
  refine ⟨ks.take i ++ ks.drop (i + 1), ?_, List.Pairwise.sublist hsub hs, ?_⟩
  · simp only [deleteKey, hI, hi, if_true]
  · intro x
    have hnd := hs.nodup bytesCompare_lawful
    rw [hdrop] at hnd
    have hnot : k ∉ ks.take i ++ ks.drop (i + 1) := (List.nodup_middle.mp hnd |> List.nodup_cons.mp).1
    constructor
    · intro hx
      exact ⟨hsub.subset hx, fun e => hnot (e ▸ hx)⟩
    · rintro ⟨hx, hne⟩
      rw [hdrop] at hx
      simp only [List.mem_append, List.mem_cons] at hx ⊢
      rcases hx with hx | hx | hx
      · exact .inl hx
      · exact absurd hx hne
      · exact .inr hx

theorem step_spec {c : Comb P} (hc : Inv c) (w : W P) :
    ∃ c', step c w = .ok (c', (specStep c.vm w).2) ∧ c'.vm = (specStep c.vm w).1 ∧ Inv c' := by
  cases w with
  | put k v =>
    cases k with
    | none => exact ⟨c, rfl, rfl, hc⟩
    | some k =>
      cases v with
      | none => exact ⟨c, rfl, rfl, hc⟩
      | some t =>
        refine ⟨_, rfl, rfl, ?_⟩
        simp only [Comb.put]
        by_cases hk : (c.vm k).isSome = true
        · rw [if_pos hk]
          refine ⟨hc.sorted, fun x => ?_⟩
          simp only
          by_cases hx : x = k
          · subst hx; simp [(hc.dom x).mpr hk]
          · simp [hx, hc.dom x]
        · rw [if_neg hk]
          have hnot : k ∉ c.keys := fun h => hk ((hc.dom k).mp h)
          refine ⟨strictSorted_sortCmp bytesCompare_lawful ?_, fun x => ?_⟩
          · rw [List.nodup_append]
            refine ⟨hc.sorted.nodup bytesCompare_lawful, by simp, ?_⟩
            intro a ha b hb e
            rw [List.mem_singleton] at hb
            exact hnot (hb ▸ e ▸ ha)
          · simp only [addKey, mem_sortCmp, List.mem_append, List.mem_singleton]
            by_cases hx : x = k
            · subst hx; simp
            · simp [hx, hc.dom x]
  | delete k =>
    cases k with
    | none => exact ⟨c, rfl, rfl, hc⟩
    | some k =>
      simp only [step, specStep, Comb.delete]
      cases hk : c.vm k with
      | none =>
        refine ⟨c, rfl, ?_, hc⟩
        funext x
        by_cases hx : x = k
        · subst hx; simp [hk]
        · simp [hx]
      | some t =>
        obtain ⟨ks, h1, h2, h3⟩ := deleteKey_spec hc.sorted ((hc.dom k).mpr (by rw [hk]; rfl))
        rw [h1]
        refine ⟨_, rfl, rfl, h2, fun x => ?_⟩
        rw [h3, hc.dom]
        by_cases hx : x = k <;> simp [hx]

theorem run_spec (ws : List (W P)) : ∀ {c : Comb P}, Inv c →
    ∃ c', run c ws = .ok (c', (specRun c.vm ws).2) ∧ c'.vm = (specRun c.vm ws).1 ∧ Inv c' := by
  induction ws with
  | nil => intro c hc; exact ⟨c, rfl, rfl, hc⟩
  | cons w ws ih =>
    intro c hc
    obtain ⟨c1, h1, h2, h3⟩ := step_spec hc w
    obtain ⟨c2, g1, g2, g3⟩ := ih h3
    refine ⟨c2, ?_, ?_, g3⟩
    · simp only [run, h1, g1, specRun, h2]
    · rw [g2, specRun, h2]

/-- C81: no history panics; the results are those of the map, `Get` answers as the map, `Keys` is the strictly sorted list of
its keys. -/
theorem C81_map (ws : List (W P)) :
    ∃ c, run (new P) ws = .ok (c, (specRun (fun _ => none) ws).2) ∧
      (∀ k, c.get (some k) = (specRun (fun _ => none) ws).1 k) ∧ c.get none = none ∧
      StrictSorted bytesCompare c.keys ∧ ∀ k, k ∈ c.keys ↔ ((specRun (fun _ => none) ws).1 k).isSome := by
  obtain ⟨c, h1, h2, h3⟩ := run_spec ws (inv_new (P := P))
  change c.vm = (specRun (fun _ => none) ws).1 at h2
  refine ⟨c, h1, fun k => ?_, rfl, h3.sorted, fun k => ?_⟩
  · rw [← h2]; rfl
  · rw [h3.dom, h2]

/-- C81: the keys, the hash, the proofs and what is saved depend on the contents only, not on the history. -/
theorem C81_contents (ws ws' : List (W P)) (c c' : Comb P) (rs rs' : List (Ret P))
    (h : run (new P) ws = .ok (c, rs)) (h' : run (new P) ws' = .ok (c', rs'))
    (he : ∀ k, c.get (some k) = c'.get (some k)) : c = c' := by
  obtain ⟨c1, g1, _, g3⟩ := run_spec ws (inv_new (P := P))
  obtain ⟨c2, f1, _, f3⟩ := run_spec ws' (inv_new (P := P))
  rw [h] at g1
  rw [h'] at f1
  simp only [Res.ok.injEq, Prod.mk.injEq] at g1 f1
  obtain ⟨rfl, _⟩ := g1
  obtain ⟨rfl, _⟩ := f1
  have hv : c.vm = c'.vm := funext he
  have hk : c.keys = c'.keys := g3.sorted.ext bytesCompare_lawful f3.sorted fun x => by rw [g3.dom, f3.dom, hv]
  cases c; cases c'
  simp only at hv hk
  rw [hv, hk]

/-- The hashes of the sub-tries at the keys. -/
theorem hashes_spec {hv : P → Res Bytes} {vm : Bytes → Option P} {f : P → Bytes} : ∀ (ks : List Bytes),
    (∀ k ∈ ks, ∃ t, vm k = some t ∧ hv t = .ok (f t)) →
    hashes hv vm ks = .ok (ks.map fun k => ((vm k).map f).getD []) ∧
    pairs hv vm ks = .ok (ks.map fun k => (k, ((vm k).map f).getD [])) := by
  intro ks
  induction ks with
  | nil => intro _; exact ⟨rfl, rfl⟩
  | cons k ks ih =>
    intro h
    obtain ⟨t, h1, h2⟩ := h k (by simp)
    obtain ⟨i1, i2⟩ := ih fun x hx => h x (by simp [hx])
    constructor
    · rw [hashes, h1]; simp only [h2, i1, List.map_cons, h1, Option.map_some, Option.getD_some]
    · rw [pairs, h1]; simp only [h2, i2, List.map_cons, h1, Option.map_some, Option.getD_some]

/-- C81: the combined hash is the Merkle root of the hashes of the sub-tries in the order of their keys. -/
theorem C81_hash (H : Bytes → Bytes) (ws : List (W P)) (c : Comb P) (rs : List (Ret P)) (h : run (new P) ws = .ok (c, rs))
    (hv : P → Res Bytes) (f : P → Bytes) (hf : ∀ k t, c.get (some k) = some t → hv t = .ok (f t)) :
    c.hash H hv = .ok (if c.keys = [] then H [] else
      (merkleHashComplete H (c.keys.map fun k => ((c.get (some k)).map f).getD []) 0 none).1) := by
  obtain ⟨c1, g1, _, g3⟩ := run_spec ws (inv_new (P := P))
  rw [h] at g1
  simp only [Res.ok.injEq, Prod.mk.injEq] at g1
  obtain ⟨rfl, _⟩ := g1
  have hk : ∀ k ∈ c.keys, ∃ t, c.vm k = some t ∧ hv t = .ok (f t) := by
    intro k hk
    obtain ⟨t, ht⟩ := Option.isSome_iff_exists.mp ((g3.dom k).mp hk)
    exact ⟨t, ht, hf k t ht⟩
  unfold Comb.hash
  by_cases h0 : c.keys = []
  · rw [if_pos h0, if_pos h0]; rfl
  · rw [if_neg h0, if_neg h0, (hashes_spec c.keys hk).1]; rfl

/-! ### The iterator -/

theorem next_spec (c : Comb P) (ks : List Bytes) : ∀ n p, ks.length - p = n →
    (∀ j, p ≤ j → (hj : j < ks.length) → (∀ i, p ≤ i → (hi : i < j) → c.get (some ks[i]) = none) →
      (c.get (some ks[j])).isSome → next c ks p = (j + 1, true)) ∧
    ((∀ i, p ≤ i → (hi : i < ks.length) → c.get (some ks[i]) = none) → (next c ks p).2 = false) := by
  intro n
  induction n with
  | zero =>
    intro p hn
    refine ⟨fun j h1 h2 => by omega, fun _ => ?_⟩
    rw [next, dif_neg (by omega)]
  | succ n ih =>
    intro p hn
    have hp : p < ks.length := by omega
    obtain ⟨i1, i2⟩ := ih (p + 1) (by omega)
    constructor
    · intro j h1 h2 h3 h4
      rw [next, dif_pos hp]
      by_cases hj : p = j
      · subst hj; rw [if_pos h4]
      · rw [if_neg (by rw [h3 p (Nat.le_refl p) (by omega)]; simp)]
        exact i1 j (by omega) h2 (fun i hi hi' => h3 i (by omega) hi') h4
    · intro h
      rw [next, dif_pos hp, if_neg (by rw [h p (Nat.le_refl p) hp]; simp)]
      exact i2 fun i hi hi' => h i (by omega) hi'

theorem walk_spec (c : Comb P) (ks : List Bytes) : ∀ f p, ks.length - p < f →
    walk c ks f p = (ks.drop p).filterMap fun k => (c.get (some k)).map fun t => some (k, t) := by
  intro f
  induction f with
  | zero => intro p h; omega
  | succ f ih =>
    -- by induction on the number of remaining keys: skip the removed ones
    have key : ∀ n p, ks.length - p = n → n < f + 1 →
        walk c ks (f + 1) p = (ks.drop p).filterMap fun k => (c.get (some k)).map fun t => some (k, t) := by
      intro n
      induction n with
      | zero =>
        intro p hp _
        rw [walk, next, dif_neg (by omega), if_neg (by simp), List.drop_eq_nil_of_le (by omega)]
        rfl
      | succ n ihn =>
        intro p hp hlt
        have hpl : p < ks.length := by omega
        rw [List.drop_eq_getElem_cons hpl]
        cases hg : c.get (some ks[p]) with
        | none =>
          rw [List.filterMap_cons_none (by rw [hg]; rfl), ← ihn (p + 1) (by omega) (by omega)]
          have h1 : next c ks p = next c ks (p + 1) := by rw [next, dif_pos hpl, if_neg (by rw [hg]; simp)]
          rw [walk, walk, h1]
        | some t =>
          have h1 := (next_spec c ks _ p rfl).1 p (Nat.le_refl p) hpl (fun i h1 h2 => by omega) (by rw [hg]; rfl)
          rw [List.filterMap_cons_some (by rw [hg]; rfl), walk, h1, if_pos rfl, ih (p + 1) (by omega)]
          simp only [current, List.getElem?_eq_getElem hpl, hg, Option.map_some]
    intro p hp
    exact key _ p rfl hp

/-- C81: the iterator yields, in ascending order, every key present at its creation that is still there when it is reached,
with its present sub-trie; on an unchanged trie these are exactly the contents. -/
theorem C81_iterator (ws ws' : List (W P)) (c c' : Comb P) (rs rs' : List (Ret P))
    (h : run (new P) ws = .ok (c, rs)) (_h' : run c ws' = .ok (c', rs')) (f : Nat) (hf : c.keys.length < f) :
    walk c' c.keys f 0 = c.keys.filterMap (fun k => (c'.get (some k)).map fun t => some (k, t)) ∧
    (walk c c.keys f 0).map (Option.map Prod.fst) = c.keys.map some := by
  constructor
  · rw [walk_spec c' c.keys f 0 (by omega)]; rfl
  · obtain ⟨c1, g1, _, g3⟩ := run_spec ws (inv_new (P := P))
    rw [h] at g1
    simp only [Res.ok.injEq, Prod.mk.injEq] at g1
    obtain ⟨rfl, _⟩ := g1
    rw [walk_spec c c.keys f 0 (by omega), List.drop_zero]
    have : ∀ ks : List Bytes, (∀ k ∈ ks, (c.vm k).isSome) →
        (ks.filterMap fun k => (c.get (some k)).map fun t => some (k, t)).map (Option.map Prod.fst) = ks.map some := by
      intro ks
      induction ks with
      | nil => intro _; rfl
      | cons k ks ih =>
        intro hk
        obtain ⟨t, ht⟩ := Option.isSome_iff_exists.mp (hk k (by simp))
        rw [List.filterMap_cons_some (b := some (k, t)) (by simp only [Comb.get, ht, Option.map_some]), List.map_cons,
          ih fun x hx => hk x (by simp [hx])]
        rfl
    exact this _ fun k hk => (g3.dom k).mp hk

/-! ### Proofs -/

theorem reach {ws : List (W P)} {c : Comb P} {rs : List (Ret P)} (h : run (new P) ws = .ok (c, rs)) : Inv c := by
  obtain ⟨c1, g1, _, g3⟩ := run_spec ws (inv_new (P := P))
  rw [h] at g1
  simp only [Res.ok.injEq, Prod.mk.injEq] at g1
  exact g1.1 ▸ g3

theorem Inv.hashes {c : Comb P} (hc : Inv c) {hv : P → Res Bytes} {f : P → Bytes}
    (hf : ∀ k t, c.get (some k) = some t → hv t = .ok (f t)) :
    ∀ k ∈ c.keys, ∃ t, c.vm k = some t ∧ hv t = .ok (f t) := by
  intro k hk
  obtain ⟨t, ht⟩ := Option.isSome_iff_exists.mp ((hc.dom k).mp hk)
  exact ⟨t, ht, hf k t ht⟩

theorem findIdx_mem {ks : List Bytes} {k : Bytes} :
    (k ∈ ks ↔ ks.findIdx (· == k) < ks.length) ∧ ∀ h : ks.findIdx (· == k) < ks.length, ks[ks.findIdx (· == k)] = k := by
  constructor
  · rw [List.findIdx_lt_length]
    constructor
    · intro h; exact ⟨k, h, by simp⟩
    · rintro ⟨x, hx, e⟩; rw [beq_iff_eq] at e; exact e ▸ hx
  · intro h
    have := List.findIdx_getElem (w := h)
    simpa using this

theorem proof_inv (H : Bytes → Bytes) (hH : ∀ b, (H b).length = 32) (R : Rtl) {c : Comb P} (hc : Inv c) (hv : P → Res Bytes) (f : P → Bytes)
    (hf : ∀ k t, c.get (some k) = some t → hv t = .ok (f t) ∧ (f t).length = 32) (k : Bytes) :
    (∀ t, c.get (some k) = some t → ∃ chain root, c.getProof H hv (some k) = .ok (some (some t, chain)) ∧
      c.hash H hv = .ok root ∧ verifyProofChain H R (f t) chain root = true) ∧
    (c.get (some k) = none → c.getProof H hv (some k) = .ok none) := by
  obtain ⟨hm, hm2⟩ := findIdx_mem (ks := c.keys) (k := k)
  have hhs := (hashes_spec c.keys (hc.hashes fun k t hk => (hf k t hk).1)).1
  constructor
  · intro t ht
    have hk : k ∈ c.keys := (hc.dom k).mpr (by change (c.get (some k)).isSome = true; rw [ht]; rfl)
    have hi := hm.mp hk
    have hke := hm2 hi
    have h32 : ∀ x ∈ c.keys.map (fun k => ((c.vm k).map f).getD []), x.length = 32 := by
      intro x hx
      obtain ⟨k', hk', rfl⟩ := List.mem_map.mp hx
      obtain ⟨t', ht'⟩ := Option.isSome_iff_exists.mp ((hc.dom k').mp hk')
      rw [ht']
      exact (hf k' t' ht').2
    obtain ⟨p, hp1, hp2⟩ := C23_complete_proof_verifies H hH _ h32 (c.keys.findIdx (· == k)) (by rw [List.length_map]; exact hi)
    refine ⟨[newNodeProof proofMerkleOnly ⟨0, [], 0, 0⟩ none (some p)],
      (merkleHashComplete H (c.keys.map fun k => ((c.vm k).map f).getD []) 0 none).1, ?_, ?_, ?_⟩
    · simp only [Comb.getProof, if_pos hi, hhs]
      rw [← hp1]
      rw [show c.vm k = some t from ht]
    · unfold Comb.hash
      rw [if_neg (by intro e; rw [e] at hk; simp at hk), hhs]
    · rw [List.getElem_map, hke, show c.vm k = some t from ht, Option.map_some, Option.getD_some,
        C23_root_independent_of_proof H _ _ 0 _ none] at hp2
      have hp3 : p.items.map (fun it => evalItems H it (f t)) = some _ := hp2
      cases hit : p.items with
      | none => rw [hit] at hp3; simp at hp3
      | some it =>
        rw [hit, Option.map_some, Option.some.injEq] at hp3
        simp only [verifyProofChain, chainProof, chainItems, NodeProof.items, newNodeProof, if_true, hit, Option.map_some,
          List.append_nil, hp3, decide_true]
  · intro hn
    have hk : ¬ k ∈ c.keys := by
      rw [hc.dom]; change ¬ (c.get (some k)).isSome = true; rw [hn]; simp
    simp only [Comb.getProof, if_neg (fun hi => hk (hm.mpr hi))]

/-- C103: for a key that is present, `GetProof` returns the sub-trie and a chain that leads from its hash to `HashValue`; for
any other key it returns nothing. -/
theorem C103_proof (H : Bytes → Bytes) (hH : ∀ b, (H b).length = 32) (R : Rtl) (ws : List (W P)) (c : Comb P)
    (rs : List (Ret P)) (h : run (new P) ws = .ok (c, rs)) (hv : P → Res Bytes) (f : P → Bytes)
    (hf : ∀ k t, c.get (some k) = some t → hv t = .ok (f t) ∧ (f t).length = 32) (k : Bytes) :
    (∀ t, c.get (some k) = some t → ∃ chain root, c.getProof H hv (some k) = .ok (some (some t, chain)) ∧
      c.hash H hv = .ok root ∧ verifyProofChain H R (f t) chain root = true) ∧
    (c.get (some k) = none → c.getProof H hv (some k) = .ok none) :=
  proof_inv H hH R (reach h) hv f hf k

/-! ### Saving and loading -/

theorem enc_ne_nil {R : Rtl} (hR : R.Lawful) (b : Bytes) : R.enc b ≠ [] := by
  intro h
  have h1 : ∀ r, R.dec r = some (b, r) := fun r => by have := hR b r; rwa [h, List.nil_append] at this
  have h2 := hR (1 :: b) []
  rw [h1] at h2
  simp only [Option.some.injEq, Prod.mk.injEq] at h2
  have := congrArg List.length h2.1
  simp at this

theorem encPairs_length {R : Rtl} (hR : R.Lawful) : ∀ l : List (Bytes × Bytes), l.length ≤ (encPairs R l).length
  | [] => by simp
  | (k, h) :: l => by
    have h1 := encPairs_length hR l
    have h2 := List.length_pos_iff.mpr (enc_ne_nil hR k)
    simp only [encPairs, List.length_cons, List.length_append]
    omega

theorem decPairs_enc {R : Rtl} (hR : R.Lawful) : ∀ (l : List (Bytes × Bytes)) f, l.length ≤ f →
    decPairs R f (encPairs R l) = some l
  | [], f, _ => by cases f <;> simp [encPairs, decPairs]
  | (k, h) :: l, 0, hf => by simp at hf
  | (k, h) :: l, f + 1, hf => by
    have ih := decPairs_enc hR l f (by simpa using hf)
    have hne : encPairs R ((k, h) :: l) ≠ [] := by
      intro e
      have := encPairs_length hR ((k, h) :: l)
      rw [e] at this
      simp at this
    have h1 : R.dec (encPairs R ((k, h) :: l)) = some (k, R.enc h ++ encPairs R l) := by
      rw [encPairs, List.append_assoc, hR]
    generalize encPairs R ((k, h) :: l) = b at hne h1 ⊢
    cases b with
    | nil => exact absurd rfl hne
    | cons x xs =>
      have h2 : R.dec (R.enc h ++ encPairs R l) = some (h, encPairs R l) := hR h _
      simp only [decPairs, h1, h2, ih, Option.map_some]

theorem loadLoop_spec (mk : Bytes → P) : ∀ (l : List (Bytes × Bytes)) (c : Comb P), (l.map Prod.fst).Nodup →
    (∀ k ∈ l.map Prod.fst, c.vm k = none) →
    (loadLoop mk l c).keys = c.keys ++ l.map Prod.fst ∧
    (∀ k h, (k, h) ∈ l → (loadLoop mk l c).vm k = some (mk h)) ∧
    (∀ k, k ∉ l.map Prod.fst → (loadLoop mk l c).vm k = c.vm k)
  | [], c, _, _ => by simp [loadLoop]
  | (k, h) :: l, c, hnd, hc => by
    rw [List.map_cons, List.nodup_cons] at hnd
    have hk : c.vm k = none := hc k (by simp)
    rw [loadLoop, if_neg (by rw [hk]; simp)]
    obtain ⟨i1, i2, i3⟩ := loadLoop_spec mk l ⟨c.keys ++ [k], fun x => if x = k then some (mk h) else c.vm x⟩ hnd.2 (by
      intro x hx
      have : x ≠ k := fun e => hnd.1 (e ▸ hx)
      simp only [if_neg this]
      exact hc x (by rw [List.map_cons]; exact List.mem_cons_of_mem _ hx))
    refine ⟨by rw [i1]; simp, ?_, ?_⟩
    · intro k' h' hm
      rcases List.mem_cons.mp hm with e | hm
      · obtain ⟨rfl, rfl⟩ := Prod.mk.injEq .. ▸ e
        rw [i3 _ hnd.1]
        simp
      · exact i2 k' h' hm
    · intro k' hm
      rw [List.map_cons, List.mem_cons, not_or] at hm
      rw [i3 k' hm.2]
      simp [hm.1]

theorem reopen_inv (H : Bytes → Bytes) (R : Rtl) (hR : R.Lawful) {c : Comb P} (hc : Inv c) (hv : P → Res Bytes) (f : P → Bytes)
    (hf : ∀ k t, c.get (some k) = some t → hv t = .ok (f t)) (hne : c.keys ≠ []) (D : Bytes → Option Bytes) (mk : Bytes → P) :
    ∃ root D', c.hash H hv = .ok root ∧ c.saveRoot H R hv D = .ok D' ∧
      ∀ D'' : Bytes → Option Bytes, D'' root = D' root → ∃ c', (new P).initTrie R mk D'' (some root) = some c' ∧
        c'.keys = c.keys ∧ (∀ k, c'.get (some k) = (c.get (some k)).map fun t => mk (f t)) ∧
        (∀ hv', (∀ b, hv' (mk b) = .ok b) → c'.hash H hv' = .ok root) := by
  obtain ⟨h1, h2⟩ := hashes_spec c.keys (hc.hashes hf)
  have hh : c.hash H hv = .ok (merkleHashComplete H (c.keys.map fun k => ((c.vm k).map f).getD []) 0 none).1 := by
    unfold Comb.hash
    rw [if_neg hne, h1]
  generalize hroot : (merkleHashComplete H (c.keys.map fun k => ((c.vm k).map f).getD []) 0 none).1 = root at hh
  refine ⟨root, fun k => if k = root then some (encPairs R (c.keys.map fun k => (k, ((c.vm k).map f).getD []))) else D k,
    hh, ?_, ?_⟩
  · simp only [Comb.saveRoot, h2, hh]
  · intro D'' hD
    simp only [if_true] at hD
    generalize hl : (c.keys.map fun k => (k, ((c.vm k).map f).getD [])) = l at hD
    have hfst : l.map Prod.fst = c.keys := by rw [← hl, List.map_map]; exact List.map_id' _
    have hlen := encPairs_length hR l
    have hnil : encPairs R l ≠ [] := by
      intro e
      rw [e] at hlen
      have : l = [] := by simpa using hlen
      rw [this] at hfst
      exact hne hfst.symm
    obtain ⟨q1, q2, q3⟩ := loadLoop_spec mk l (new P) (by rw [hfst]; exact hc.sorted.nodup bytesCompare_lawful)
      (fun k _ => rfl)
    have hget : ∀ k, (loadLoop mk l (new P)).vm k = (c.vm k).map fun t => mk (f t) := by
      intro k
      by_cases hk : k ∈ c.keys
      · obtain ⟨t, ht⟩ := Option.isSome_iff_exists.mp ((hc.dom k).mp hk)
        rw [q2 k (f t) (by rw [← hl]; exact List.mem_map.mpr ⟨k, hk, by rw [ht]; rfl⟩), ht]
        rfl
      · rw [q3 k (by rw [hfst]; exact hk)]
        have : c.vm k = none := by
          cases e : c.vm k with
          | none => rfl
          | some t => exact absurd ((hc.dom k).mpr (by rw [e]; rfl)) hk
        rw [this]
        rfl
    have hkeys : sortCmp bytesCompare (loadLoop mk l (new P)).keys = c.keys := by
      rw [q1, hfst]
      change sortCmp bytesCompare ([] ++ c.keys) = c.keys
      rw [List.nil_append]
      exact (strictSorted_sortCmp bytesCompare_lawful (hc.sorted.nodup bytesCompare_lawful)).ext bytesCompare_lawful hc.sorted
        fun x => mem_sortCmp
    refine ⟨⟨c.keys, (loadLoop mk l (new P)).vm⟩, ?_, rfl, hget, ?_⟩
    · simp only [Comb.initTrie, hD, Option.getD_some, if_neg hnil, decPairs_enc hR l _ hlen, Option.map_some, hkeys]
    · intro hv' hmk
      have := (hashes_spec (hv := hv') (vm := (loadLoop mk l (new P)).vm) (f := fun t => match hv' t with | .ok b => b | _ => [])
        c.keys (by
          intro k hk
          obtain ⟨t, ht⟩ := Option.isSome_iff_exists.mp ((hc.dom k).mp hk)
          exact ⟨mk (f t), by rw [hget, ht]; rfl, by rw [hmk]⟩)).1
      unfold Comb.hash
      simp only [if_neg hne, this]
      rw [← hroot]
      congr 3
      apply List.map_congr_left
      intro k hk
      obtain ⟨t, ht⟩ := Option.isSome_iff_exists.mp ((hc.dom k).mp hk)
      rw [hget, ht]
      simp only [Option.map_some, Option.getD_some, hmk]

/-- C104, for a trie that is not empty and as long as nothing else is saved under its root: a new combined trie initialised
at the hash of a committed one has the same keys, each with a sub-trie opened at the hash it had. -/
theorem C104_reopen_partial (H : Bytes → Bytes) (R : Rtl) (hR : R.Lawful) (ws : List (W P)) (c : Comb P)
    (rs : List (Ret P)) (h : run (new P) ws = .ok (c, rs)) (hv : P → Res Bytes) (f : P → Bytes)
    (hf : ∀ k t, c.get (some k) = some t → hv t = .ok (f t)) (hne : c.keys ≠ []) (D : Bytes → Option Bytes) (mk : Bytes → P) :
    ∃ root D', c.hash H hv = .ok root ∧ c.saveRoot H R hv D = .ok D' ∧
      ∀ D'' : Bytes → Option Bytes, D'' root = D' root → ∃ c', (new P).initTrie R mk D'' (some root) = some c' ∧
        c'.keys = c.keys ∧ (∀ k, c'.get (some k) = (c.get (some k)).map fun t => mk (f t)) ∧
        (∀ hv', (∀ b, hv' (mk b) = .ok b) → c'.hash H hv' = .ok root) :=
  reopen_inv H R hR (reach h) hv f hf hne D mk

/-- C105, the part that holds: two combined tries with equally many keys and the same hash have the same hashes of sub-tries
in the order of their keys, unless a collision is exhibited. -/
theorem C105_binding_partial (H : Bytes → Bytes) (hH : ∀ b, (H b).length = 32) (ws ws' : List (W P)) (c c' : Comb P)
    (rs rs' : List (Ret P)) (h : run (new P) ws = .ok (c, rs)) (h' : run (new P) ws' = .ok (c', rs'))
    (hv : P → Res Bytes) (f : P → Bytes)
    (hf : ∀ k t, c.get (some k) = some t → hv t = .ok (f t) ∧ (f t).length = 32)
    (hf' : ∀ k t, c'.get (some k) = some t → hv t = .ok (f t) ∧ (f t).length = 32)
    (hlen : c.keys.length = c'.keys.length) (he : c.hash H hv = c'.hash H hv) :
    c.keys.map (fun k => (c.get (some k)).map f) = c'.keys.map (fun k => (c'.get (some k)).map f) ∨
    ∃ d, Collision H (minputs H d (leaves (H []) (c.keys.map fun k => ((c.vm k).map f).getD [])))
      (minputs H d (leaves (H []) (c'.keys.map fun k => ((c'.vm k).map f).getD []))) := by
  have hc := reach h
  have hc' := reach h'
  have get_some : ∀ (c : Comb P), Inv c → ∀ l : List Bytes, (∀ k ∈ l, k ∈ c.keys) →
      l.map (fun k => (c.get (some k)).map f) = (l.map fun k => ((c.vm k).map f).getD []).map some := by
    intro c hc l hl
    rw [List.map_map]
    apply List.map_congr_left
    intro k hk
    obtain ⟨t, ht⟩ := Option.isSome_iff_exists.mp ((hc.dom k).mp (hl k hk))
    simp only [Comb.get, ht, Option.map_some, Function.comp, Option.getD_some]
  have h32 : ∀ (c : Comb P), Inv c → (∀ k t, c.get (some k) = some t → hv t = .ok (f t) ∧ (f t).length = 32) →
      ∀ x ∈ c.keys.map (fun k => ((c.vm k).map f).getD []), x.length = 32 := by
    intro c hc hf x hx
    obtain ⟨k', hk', rfl⟩ := List.mem_map.mp hx
    obtain ⟨t', ht'⟩ := Option.isSome_iff_exists.mp ((hc.dom k').mp hk')
    rw [ht']
    exact (hf k' t' ht').2
  by_cases h0 : c.keys = []
  · left
    have h0' : c'.keys = [] := List.length_eq_zero_iff.mp (by rw [← hlen, h0]; rfl)
    rw [h0, h0']
    rfl
  · have h0' : c'.keys ≠ [] := by
      intro e
      rw [e] at hlen
      exact h0 (List.length_eq_zero_iff.mp hlen)
    unfold Comb.hash at he
    rw [if_neg h0, if_neg h0', (hashes_spec c.keys (hc.hashes fun k t hk => (hf k t hk).1)).1,
      (hashes_spec c'.keys (hc'.hashes fun k t hk => (hf' k t hk).1)).1] at he
    simp only [Res.ok.injEq] at he
    obtain ⟨d, hd⟩ := exists_depth (c.keys.map fun k => ((c.vm k).map f).getD []).length
    rw [C23_root_independent_of_proof H _ 0 (-1) none none, C23_root_independent_of_proof H _ 0 (-1) none none] at he
    rcases C29_complete_binding H hH _ _ (h32 c hc hf) (h32 c' hc' hf') (by simp [hlen]) d hd he with e | e
    · left
      rw [get_some c hc _ fun _ hk => hk, get_some c' hc' _ fun _ hk => hk, e]
    · exact .inr ⟨d, e⟩

/-! ### Examples, and where the code disagrees -/

/-- A history with a re-put, a delete and keys that are prefixes of one another. -/
def demo : List (W Nat) :=
  [.put (some [2]) (some 7), .put (some [1, 1]) (some 8), .put (some [1]) (some 9), .put (some [2]) (some 5), .put none (some 1),
    .put (some [3]) none, .delete (some [9]), .put (some []) (some 6), .delete (some [1, 1])]

/-- A sub-trie is a number; its hash is a block of bytes. -/
def demoHash (n : Nat) : Res Bytes := if n = 100 then .panic else .ok (natBE 32 n)

example : (match run (new Nat) demo with | .ok (c, _) => some (c.keys, c.get (some [2]), c.get (some [1, 1])) | _ => none) =
    some ([[], [1], [2]], some 5, none) := by decide +kernel

example : (match run (new Nat) demo with
    | .ok (c, _) => walk c c.keys 9 0 = [some ([], 6), some ([1], 9), some ([2], 5)]
    | _ => False) := by
  obtain ⟨c, h, _⟩ := C81_map demo
  have hk : (match run (new Nat) demo with | .ok (c, _) => some c.keys | _ => none) = some [[], [1], [2]] := by decide +kernel
  have hg : (match run (new Nat) demo with
      | .ok (c, _) => some (c.keys.filterMap (fun k => (c.get (some k)).map (fun t => some (k, t))))
      | _ => none) = some [some ([], 6), some ([1], 9), some ([2], 5)] := by decide +kernel
  rw [h] at hk hg ⊢
  simp only [Option.some.injEq] at hk hg
  rw [← hg]
  exact (C81_iterator demo [] c c _ [] h rfl 9 (by rw [hk]; decide)).1

/-- C104, refuted: an empty combined trie cannot be reopened at its hash. -/
theorem C104_empty_refuted (H : Bytes → Bytes) (R : Rtl) (hv : P → Res Bytes) (D : Bytes → Option Bytes) (mk : Bytes → P) :
    (new P).hash H hv = .ok (nilHash H) ∧
    ∃ D', (new P).saveRoot H R hv D = .ok D' ∧ (new P).initTrie R mk D' (some (nilHash H)) = none := by
  refine ⟨rfl, _, rfl, ?_⟩
  simp [Comb.initTrie, encPairs]

/-- C105, refuted: the hash does not bind the keys, so tries with different keys share it. -/
theorem C105_keys_refuted (H : Bytes → Bytes) (hv : P → Res Bytes) (t : P) (k k' : Bytes) (hk : k ≠ k') :
    ∃ c c', run (new P) [.put (some k) (some t)] = .ok (c, [.put true]) ∧
      run (new P) [.put (some k') (some t)] = .ok (c', [.put true]) ∧ c.keys ≠ c'.keys ∧ c.hash H hv = c'.hash H hv := by
  refine ⟨_, _, rfl, rfl, ?_, ?_⟩
  · intro e
    have h1 : k ∈ sortCmp bytesCompare ([] ++ [k]) := mem_sortCmp.mpr (by simp)
    have h2 : sortCmp bytesCompare ([] ++ [k]) = sortCmp bytesCompare ([] ++ [k']) := e
    rw [h2, mem_sortCmp] at h1
    exact hk (by simpa using h1)
  · have : ∀ k : Bytes, Comb.hash H hv ((new P).put (some k) (some t)).1 =
        (match hv t with | .ok b => .ok (merkleHashComplete H [b] 0 none).1 | .err => .err | .panic => .panic) := by
      intro k
      have e : ((new P).put (some k) (some t)).1 = ⟨[k], fun x => if x = k then some t else none⟩ := rfl
      rw [e, Comb.hash, if_neg (by simp)]
      simp only [hashes, if_true]
      cases hv t <;> rfl
    rw [this, this]

/-- C104, refuted: and so committing one of them makes the other one unreadable: what is opened at its hash has other keys. -/
theorem C104_overwritten_refuted (H : Bytes → Bytes) (R : Rtl) (hR : R.Lawful) (hv : P → Res Bytes) (t : P) (b : Bytes)
    (ht : hv t = .ok b) (D : Bytes → Option Bytes) (mk : Bytes → P) :
    ∃ c c' D1 D2 root c'', run (new P) [.put (some [1]) (some t)] = .ok (c, [.put true]) ∧
      run (new P) [.put (some [2]) (some t)] = .ok (c', [.put true]) ∧ c.saveRoot H R hv D = .ok D1 ∧
      c'.saveRoot H R hv D1 = .ok D2 ∧ c.hash H hv = .ok root ∧ (new P).initTrie R mk D2 (some root) = some c'' ∧
      c.keys = [[1]] ∧ c''.keys = [[2]] := by
  obtain ⟨c, c', h1, h2, _, h3⟩ := C105_keys_refuted H hv t [1] [2] (by decide)
  have hc : c = ⟨[[1]], fun x => if x = [1] then some t else none⟩ := by cases h1; rfl
  have hc' : c' = ⟨[[2]], fun x => if x = [2] then some t else none⟩ := by cases h2; rfl
  have f1 : ∀ k x, c.get (some k) = some x → hv x = .ok ((fun _ => b) x) := by
    intro k x hx
    rw [hc] at hx
    simp only [Comb.get] at hx
    split at hx
    · cases hx; exact ht
    · simp at hx
  have f2 : ∀ k x, c'.get (some k) = some x → hv x = .ok ((fun _ => b) x) := by
    intro k x hx
    rw [hc'] at hx
    simp only [Comb.get] at hx
    split at hx
    · cases hx; exact ht
    · simp at hx
  obtain ⟨r1, D1, a1, a2, _⟩ := C104_reopen_partial H R hR _ c _ h1 hv (fun _ => b) f1 (by rw [hc]; simp) D mk
  obtain ⟨r2, D2, b1, b2, b3⟩ := C104_reopen_partial H R hR _ c' _ h2 hv (fun _ => b) f2 (by rw [hc']; simp) D1 mk
  have : r1 = r2 := by rw [a1, b1] at h3; simpa using h3
  subst this
  obtain ⟨c'', e1, e2, _⟩ := b3 D2 rfl
  exact ⟨c, c', D1, D2, r1, c'', h1, h2, a2, b2, a1, e1, by rw [hc], by rw [e2, hc']⟩

end Verif.Combined

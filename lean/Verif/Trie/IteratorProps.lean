import Verif.Trie.IteratorBack
import Verif.Trie.StoreProps
import Verif.Sorted

/-!
# Properties C12 and C13: the value iterators
-/

namespace Verif.Trie.Store
open Verif Verif.Merkle Verif.Trie

variable {V : Type} {E : Env V}

/-! ### Vocabulary of the statements -/

/-- Strictly ascending keys, in the order of `bytes.Compare`. -/
def Ascending (l : List (Bytes × Option V)) : Prop := l.Pairwise fun a b => bytesCompare a.1 b.1 < 0

/-- Strictly descending keys. -/
def Descending (l : List (Bytes × Option V)) : Prop := l.Pairwise fun a b => bytesCompare b.1 a.1 < 0

/-- The list holds exactly the contents of the map. -/
def Holding (l : List (Bytes × Option V)) (m : Bytes → Option V) : Prop :=
  ∀ k v, (k, v) ∈ l ↔ ∃ x, v = some x ∧ m k = some x

/-- The session after the calls, with no failing `Save`. -/
def after (E : Env V) (D : Disk) (ops : List (SOp V)) : Sess V := srun E noFaults ⟨openTrie none, D⟩ ops

/-- The map after the calls. -/
def contents (ops : List (SOp V)) : Bytes → Option V := spec (ops.filterMap SOp.call)

/-! ### Bytes and nibbles -/

theorem nibBytes_key (k : Bytes) : (keyToPrefix k).map nibByte = keyToPrefixB k := by
  induction k with
  | nil => rfl
  | cons b k ih =>
    have : keyToPrefixB (b :: k) = (b >>> 4) :: (b &&& 0x0F) :: keyToPrefixB k := by simp [keyToPrefixB]
    rw [keyToPrefix_cons, this, ← ih]
    have hb : ∀ n : Fin 256, nibByte ⟨n.val / 16, by have := n.isLt; omega⟩ = UInt8.ofFin n >>> 4 ∧
        nibByte ⟨n.val % 16, by omega⟩ = UInt8.ofFin n &&& 0x0F := by decide +kernel
    have h1 := (hb b.toFin).1
    have h2 := (hb b.toFin).2
    rw [List.map_cons, List.map_cons]
    exact congrArg₂ _ h1 (congrArg₂ _ h2 rfl)

theorem keyed_key (k : Bytes) (v : Option V) : keyed (keyToPrefix k, v) = (k, v) := by
  rw [keyed, nibBytes_key, (C14_key_roundtrip k).2]

theorem before_cons {x y : Nib} {a b : List Nib} (h : Before (x :: a) (y :: b)) : x < y ∨ (x = y ∧ Before a b) := by
  cases h with
  | rel h => exact Or.inl h
  | cons h => exact Or.inr ⟨rfl, h⟩

theorem before_key (a b : Bytes) : Before (keyToPrefix a) (keyToPrefix b) → bytesCompare a b < 0 := by
  induction a generalizing b with
  | nil =>
    intro h
    cases b with
    | nil => cases h
    | cons y b => simp [bytesCompare]
  | cons x a ih =>
    intro h
    cases b with
    | nil => cases h
    | cons y b =>
      rw [keyToPrefix_cons, keyToPrefix_cons] at h
      rw [bytesCompare]
      have hx := x.toNat_lt
      have hy := y.toNat_lt
      by_cases h1 : x < y
      · simp [h1]
      · have h1' : ¬ x.toNat < y.toNat := h1
        rw [if_neg h1]
        rcases before_cons h with h | ⟨heq, h⟩
        · have h : x.toNat / 16 < y.toNat / 16 := h
          omega
        · have heq : x.toNat / 16 = y.toNat / 16 := congrArg Fin.val heq
          rcases before_cons h with h | ⟨heq', h3⟩
          · have h : x.toNat % 16 < y.toNat % 16 := h
            omega
          · have heq' : x.toNat % 16 = y.toNat % 16 := congrArg Fin.val heq'
            have hxy : x = y := by
              apply UInt8.toNat_inj.1
              omega
            subst hxy
            rw [if_neg h1]
            exact ih b h3

/-! ### The clone -/

theorem clone_spec (hE : E.Lawful) {ops : List (SOp V)} (hk : ClearOps [] ops) (hA : Apart E (along ops))
    {D : Disk} (hD : D.ok) (L : Limits) :
    let s := after E D ops
    let r := s.t.clone E noFaults L s.D
    Inv ((newTrie (V := V)).run (ops.filterMap SOp.call)) (contents ops) ∧
    Rep E r.2.1 r.2.2.root ((newTrie (V := V)).run (ops.filterMap SOp.call)).root := by
  have hs := (outs_spec hE hA (noFaults_harmless E _) ops [] ⟨openTrie none, D⟩ ⟨hD, rep_openNil⟩
    fun pre hp => ⟨pre, hp, rfl⟩).2
  have hinv := clear_inv ops [] inv_nil hk
  rw [List.nil_append] at hs hinv
  refine ⟨hinv, ?_⟩
  obtain ⟨h1, h2, -, h3, h4⟩ := commit_step hE (hA.ghost hE) (noFaults_harmless E _) L hs.disk hs.rep hinv.wf
    ⟨hinv.wf.isSome, _, ⟨ops, List.prefix_refl _, rfl⟩, Sub.refl _⟩
  have := rep_open hinv.wf h4 ((srun E noFaults ⟨openTrie none, D⟩ ops).t.commit E noFaults L
    (srun E noFaults ⟨openTrie none, D⟩ ops).D).1.gen
  rw [← (hash_step h3 hinv.wf).1] at this
  exact this

/-! ### C12 -/

theorem listing {t : MTrie V} {m : Bytes → Option V} (h : Inv t m) :
    (∀ e ∈ visits [] t.root, e.2.isSome = true → ∃ k, e.1 = keyToPrefix k) ∧
    Ascending (((visits [] t.root).filter fun e => e.2.isSome).map keyed) ∧
    Holding (((visits [] t.root).filter fun e => e.2.isSome).map keyed) m := by
  have hkey : ∀ e ∈ visits [] t.root, e.2.isSome = true → ∃ k, e.1 = keyToPrefix k := by
    intro e he hs
    obtain ⟨x, hx⟩ := Option.isSome_iff_exists.1 hs
    obtain ⟨q, w⟩ := e
    simp only at hx
    subst hx
    obtain ⟨s, hs1, hs2⟩ := (mem_visits _ _ _ _).1 he
    rw [List.nil_append] at hs1
    subst hs1
    exact h.keys _ (by rw [hs2]; rfl)
  refine ⟨hkey, ?_, ?_⟩
  · have hp := (visits_sorted [] t.root).filter (fun e => e.2.isSome)
    rw [Ascending, List.pairwise_map]
    refine hp.imp_of_mem ?_
    intro a b ha hb hab
    obtain ⟨ha1, ha2⟩ := List.mem_filter.1 ha
    obtain ⟨hb1, hb2⟩ := List.mem_filter.1 hb
    obtain ⟨ka, hka⟩ := hkey a ha1 ha2
    obtain ⟨kb, hkb⟩ := hkey b hb1 hb2
    obtain ⟨qa, va⟩ := a
    obtain ⟨qb, vb⟩ := b
    simp only at hka hkb hab
    subst hka
    subst hkb
    rw [keyed_key, keyed_key]
    exact before_key _ _ hab
  · intro k v
    constructor
    · intro hm
      obtain ⟨e, he, hke⟩ := List.mem_map.1 hm
      obtain ⟨he1, he2⟩ := List.mem_filter.1 he
      obtain ⟨k', hk'⟩ := hkey e he1 he2
      obtain ⟨q, w⟩ := e
      simp only at hk' he2
      subst hk'
      rw [keyed_key] at hke
      obtain ⟨rfl, rfl⟩ := Prod.mk.inj hke
      obtain ⟨x, rfl⟩ := Option.isSome_iff_exists.1 he2
      obtain ⟨s, hs1, hs2⟩ := (mem_visits _ _ _ _).1 he1
      rw [List.nil_append] at hs1
      subst hs1
      rw [h.look] at hs2
      exact ⟨x, rfl, hs2⟩
    · rintro ⟨x, rfl, hx⟩
      refine List.mem_map.2 ⟨(keyToPrefix k, some x), List.mem_filter.2 ⟨?_, rfl⟩, keyed_key _ _⟩
      exact (mem_visits _ _ _ _).2 ⟨keyToPrefix k, rfl, by rw [h.look]; exact hx⟩

/-- **C12, what holds.** After any sequence of calls in which every key addressed is stored at that time or has no stored
proper extension, iterating terminates and yields exactly the contents of the map in strictly ascending order of the keys;
this includes commits, collapsed nodes and reopened tries. -/
theorem C12_forward_partial (hE : E.Lawful) (ops : List (SOp V)) (hk : ClearOps [] ops) (hA : Apart E (along ops))
    (D : Disk) (hD : D.ok) (L : Limits) :
    ∃ N l, (∀ n, N ≤ n → (after E D ops).t.iterate E noFaults L (after E D ops).D n = .ok l) ∧
      Ascending l ∧ Holding l (contents ops) := by
  obtain ⟨hinv, hrep⟩ := clone_spec hE hk hA hD L
  obtain ⟨hkey, hasc, hhold⟩ := listing hinv
  refine ⟨_, _, fun n hn => iterate_spec hE _ hrep hinv.wf ?_ n (Nat.lt_of_lt_of_le (Nat.lt_succ_self _) hn), hasc, hhold⟩
  intro e he hs
  obtain ⟨k, hk⟩ := hkey e he hs
  rw [hk, keyToPrefix_length]
  omega

/-- **C12, what holds,** for keys of one fixed length. -/
theorem C12_fixed_partial (hE : E.Lawful) (len : Nat) (hlen : ∀ k : Bytes, k.length ≤ len → (E.R.enc k).length ≤ 60)
    (ops : List (SOp V)) (hk : ∀ op ∈ ops, ∀ k, op.key = some k → k.length = len) (hN : NoCollision E ops)
    (D : Disk) (hD : D.ok) (L : Limits) :
    ∃ N l, (∀ n, N ≤ n → (after E D ops).t.iterate E noFaults L (after E D ops).D n = .ok l) ∧
      Ascending l ∧ Holding l (contents ops) :=
  C12_forward_partial hE ops (clearOps_prefixFree (prefixFree_fixed len) ops [] (by simp) hk) (apart_fixed hlen ops hk hN) D hD L

/-- The keys in the order yielded are a strictly sorted list, so that no key appears twice. -/
theorem C12_once_partial {l : List (Bytes × Option V)} (h : Ascending l) : (l.map (·.1)).Nodup := by
  rw [List.Nodup, List.pairwise_map]
  refine h.imp ?_
  intro a b hab heq
  rw [heq, LawfulCmp.refl bytesCompare_lawful] at hab
  omega

/-! More fuel does not change an answer. -/

theorem nextF_mono (E : Env V) (D : Disk) (g : UInt64) (root : BNode V) (f : Nat) : ∀ (it x : It (Tr V)),
    nextF E D g root f it = some x → nextF E D g root (f + 1) it = some x := by
  induction f with
  | zero => intro it x h; simp [nextF] at h
  | succ f ih =>
    intro it x h
    cases it with
    | ended => exact h
    | fresh =>
      rw [nextF] at h ⊢
      split
      · rename_i hv; rw [if_pos hv] at h; exact h
      · rename_i hv; rw [if_neg hv] at h; exact ih _ _ h
    | «at» st =>
      rw [nextF] at h ⊢
      cases hf : forward E D g st with
      | none => rw [hf] at h; exact h
      | some st' =>
        rw [hf] at h
        simp only at h ⊢
        split
        · rename_i hv; rw [if_pos hv] at h; exact h
        · rename_i hv; rw [if_neg hv] at h; exact ih _ _ h

theorem collect_mono (E : Env V) (D : Disk) (g : UInt64) (root : BNode V) (f : Nat) : ∀ (it : It (Tr V)),
    collect E D g root f it ≠ .err → collect E D g root (f + 1) it = collect E D g root f it := by
  induction f with
  | zero => intro it h; exact absurd rfl h
  | succ f ih =>
    intro it h
    rw [collect] at h
    rw [collect, collect.eq_def E D g root (f + 1) it]
    simp only
    cases hn : nextF E D g root f it with
    | none => rw [hn] at h; exact absurd rfl h
    | some x =>
      rw [nextF_mono E D g root f it x hn]
      rw [hn] at h
      cases x with
      | fresh => exact absurd rfl h
      | ended => rfl
      | «at» st =>
        simp only at h ⊢
        cases hc : current (.at st) with
        | err => rw [hc] at h
        | panic => rfl
        | ok kv =>
          rw [hc] at h
          simp only at h ⊢
          have : collect E D g root f (.at st) ≠ .err := by
            intro he
            rw [he] at h
            exact h rfl
          rw [ih _ this]

theorem collect_le (E : Env V) (D : Disk) (g : UInt64) (root : BNode V) (it : It (Tr V)) {f n : Nat} (hn : f ≤ n)
    (h : collect E D g root f it ≠ .err) : collect E D g root n it = collect E D g root f it := by
  induction n, hn using Nat.le_induction with
  | base => rfl
  | succ n hn ih => rw [collect_mono E D g root n it (ih ▸ h), ih]

theorem rnextF_mono (E : Env V) (D : Disk) (g : UInt64) (root : BNode V) (f : Nat) : ∀ (it x : It (RTr V)),
    rnextF E D g root f it = some x → rnextF E D g root (f + 1) it = some x := by
  induction f with
  | zero => intro it x h; simp [rnextF] at h
  | succ f ih =>
    intro it x h
    cases it with
    | ended => exact h
    | fresh =>
      rw [rnextF] at h ⊢
      split
      · rename_i hv; rw [if_pos hv] at h; exact ih _ _ h
      · rename_i hv; rw [if_neg hv] at h; exact h
    | «at» st =>
      rw [rnextF] at h ⊢
      cases hf : backward E D g st with
      | ended => rw [hf] at h; exact h
      | found st' => rw [hf] at h; exact h
      | go st' => rw [hf] at h; exact ih _ _ h

theorem rcollect_mono (E : Env V) (D : Disk) (g : UInt64) (root : BNode V) (f : Nat) : ∀ (it : It (RTr V)) l,
    rcollect E D g root f it = some l → rcollect E D g root (f + 1) it = some l := by
  induction f with
  | zero => intro it l h; simp [rcollect] at h
  | succ f ih =>
    intro it l h
    rw [rcollect] at h ⊢
    cases hn : rnextF E D g root f it with
    | none => rw [hn] at h; simp at h
    | some x =>
      rw [rnextF_mono E D g root f it x hn]
      rw [hn] at h
      cases x with
      | fresh => exact h
      | ended => exact h
      | «at» st =>
        simp only at h ⊢
        obtain ⟨l', h1, h2⟩ := Option.map_eq_some_iff.1 h
        rw [ih _ _ h1, Option.map_some, h2]

theorem rcollect_le (E : Env V) (D : Disk) (g : UInt64) (root : BNode V) (it : It (RTr V)) {f n : Nat} (hn : f ≤ n)
    {l : List (Bytes × Option V)} (h : rcollect E D g root f it = some l) : rcollect E D g root n it = some l := by
  induction n, hn using Nat.le_induction with
  | base => exact h
  | succ n hn ih => exact rcollect_mono E D g root n it l ih

/-- The claim of C12 for all histories. -/
def IterLaw (V : Type) : Prop := ∀ (E : Env V), E.Lawful → ∀ (ops : List (SOp V)), Apart E (along ops) →
  ∀ (D : Disk), D.ok → ∃ N l, (∀ n, N ≤ n → (after E D ops).t.iterate E noFaults realLimits (after E D ops).D n = .ok l) ∧
    Ascending l ∧ Holding l (contents ops)

/-- A key that ends where a child begins. -/
def oddCalls : List (SOp Bytes) :=
  [.put [0x12, 0x34] [1], .put [0x12, 0x35] [2], .put [0x13, 0x45] [3], .put [0x12] [4]]

/-- C07 holds even for such calls: the stored trie behaves like the one in memory. -/
example : outs toyE noFaults ⟨openTrie none, freshDisk⟩ oddCalls = expectT toyE newTrie oddCalls :=
  C07_transparent_all toyE_lawful oddCalls (apart_of (by decide +kernel) (by decide +kernel) (by decide +kernel))
    freshDisk freshDisk_ok

/-- **C12, refuted.** A `Put` that is taken for a longer key may leave a value at an odd number of nibbles; iterating then
panics. -/
theorem C12_refuted : ¬ IterLaw Bytes := by
  intro h
  obtain ⟨N, l, h1, -⟩ := h toyE toyE_lawful oddCalls
    (apart_of (by decide +kernel) (by decide +kernel) (by decide +kernel)) freshDisk freshDisk_ok
  have h2 : BTrie.iterate toyE noFaults realLimits (after toyE freshDisk oddCalls).D (after toyE freshDisk oddCalls).t 50 =
    .panic := by decide +kernel
  have h3 := h1 (max N 50) (le_max_left _ _)
  rw [BTrie.iterate, collect_le _ _ _ _ _ (le_max_right N 50) (by
    rw [BTrie.iterate] at h2
    rw [h2]
    simp)] at h3
  rw [BTrie.iterate, h3] at h2
  simp at h2

/-- Branching keys, one a proper prefix of two others: all four are listed in order, before and after a reload. -/
def nested : List (SOp Bytes) := [.put [0x12] [1], .put [0x12, 0x34] [2], .put [0x12, 0x01] [3], .put [0x11, 0xFF] [4]]

theorem nested_clear : ClearOps [] nested := by
  refine ⟨?_, ?_, ?_, ?_, trivial⟩ <;>
  · intro k hk
    simp [SOp.key] at hk
    subst hk
    right
    intro k' h1 h2
    simp [spec, specStep, SOp.call] at h1 <;> aesop

theorem nested_apart : Apart toyE (along nested) :=
  apart_of (by decide +kernel) (by decide +kernel) (by decide +kernel)

example : ∃ N l, (∀ n, N ≤ n → (after toyE freshDisk nested).t.iterate toyE noFaults realLimits (after toyE freshDisk nested).D n
    = .ok l) ∧ Ascending l ∧ Holding l (contents nested) :=
  C12_forward_partial toyE_lawful nested nested_clear nested_apart freshDisk freshDisk_ok realLimits

example : (after toyE freshDisk nested).t.iterate toyE noFaults realLimits (after toyE freshDisk nested).D 12 =
    .ok [([0x11, 0xFF], some [4]), ([0x12], some [1]), ([0x12, 0x01], some [3]), ([0x12, 0x34], some [2])] := by
  decide +kernel

example : (after toyE freshDisk demoCalls).t.iterate toyE noFaults realLimits (after toyE freshDisk demoCalls).D 12 =
    .ok [([0x12, 0x35], some [2]), ([0x52, 0x35], some [3])] := by
  decide +kernel

/-! ### C13 -/

theorem descending {l : List (Bytes × Option V)} (h : Ascending l) : Descending l.reverse := by
  rw [Descending, List.pairwise_reverse]
  exact h

/-- **C13, what holds.** Over a prefix-free set of keys, iterating backwards terminates and yields exactly the contents in
strictly descending order of the keys. -/
theorem C13_backward_partial (hE : E.Lawful) (K : Bytes → Prop) (hK : PrefixFree K) (ops : List (SOp V))
    (hk : ∀ op ∈ ops, ∀ k, op.key = some k → K k) (hA : Apart E (along ops)) (D : Disk) (hD : D.ok) (L : Limits) :
    ∃ N l, (∀ n, N ≤ n → (after E D ops).t.riterate E noFaults L (after E D ops).D n = some l) ∧
      Descending l ∧ Holding l (contents ops) := by
  obtain ⟨hinv, hrep⟩ := clone_spec hE (clearOps_prefixFree hK ops [] (by simp) hk) hA hD L
  obtain ⟨hkey, hasc, hhold⟩ := listing hinv
  have hkeys : ∀ o ∈ ops.filterMap SOp.call, K o.key := by
    intro o ho
    obtain ⟨op, h1, h2⟩ := List.mem_filterMap.1 ho
    exact hk op h1 _ (call_key h2)
  have hfree : ∀ s r, (lookup ((newTrie (V := V)).run (ops.filterMap SOp.call)).root s).isSome = true →
      (lookup ((newTrie (V := V)).run (ops.filterMap SOp.call)).root (s ++ 0 :: r)).isSome = false := by
    intro s r hs
    by_contra hne
    rw [Bool.not_eq_false] at hne
    obtain ⟨k1, h1⟩ := hinv.keys _ hs
    obtain ⟨k2, h2⟩ := hinv.keys _ hne
    have hp : keyToPrefix k1 <+: keyToPrefix k2 := by
      rw [← h1, ← h2]
      exact List.prefix_append _ _
    rw [h1, hinv.look] at hs
    rw [h2, hinv.look] at hne
    have := hK _ _ (spec_keys _ hkeys (fun _ => none) (by simp) k1 hs) (spec_keys _ hkeys (fun _ => none) (by simp) k2 hne)
      ((keyToPrefix_prefix _ _).1 hp)
    rw [this, ← h2] at h1
    have hl := congrArg List.length h1
    simp at hl
  have heq : rvisits [] ((newTrie (V := V)).run (ops.filterMap SOp.call)).root =
      ((visits [] ((newTrie (V := V)).run (ops.filterMap SOp.call)).root).filter fun e => e.2.isSome).reverse := by
    have hw := hinv.wf
    cases hr : ((newTrie (V := V)).run (ops.filterMap SOp.call)).root with
    | nil => rw [hr] at hw; exact hw.elim
    | mk p v c =>
      rw [hr] at hw hfree
      rcases hw with hw | hw
      · obtain ⟨rfl, rfl, hc⟩ := (isEmpty_iff _ _ _).1 hw
        have h1 : ∀ j q, rvisits q (c j) = [] := fun j q => by rw [hc j]; rfl
        have h2 : ∀ j q, visits q (c j) = [] := fun j q => by rw [hc j]; rfl
        have h3 : ∀ l : List Nib, l.flatMap (fun _ => ([] : List (List Nib × Option V))) = [] := by
          intro l
          induction l with
          | nil => rfl
          | cons j l ih => rw [List.flatMap_cons, ih]; rfl
        simp [rvisits, visits, own, h1, h2, h3]
      · exact rvisits_eq _ _ hw hfree
  refine ⟨_, _, fun n hn => riterate_spec hE _ hrep hinv.wf n (Nat.lt_of_lt_of_le (Nat.lt_succ_self _) hn), ?_, ?_⟩
  · rw [heq, List.map_reverse]
    exact descending hasc
  · rw [heq, List.map_reverse]
    intro k v
    rw [List.mem_reverse]
    exact hhold k v

/-- **C13, what holds** for all unambiguous histories: nothing is yielded that is not stored, and the order is strictly
descending; what may be missing is said by `C13_refuted`. -/
theorem C13_sound_partial (hE : E.Lawful) (ops : List (SOp V)) (hk : ClearOps [] ops) (hA : Apart E (along ops))
    (D : Disk) (hD : D.ok) (L : Limits) :
    ∃ N l, (∀ n, N ≤ n → (after E D ops).t.riterate E noFaults L (after E D ops).D n = some l) ∧
      Descending l ∧ ∀ k v, (k, v) ∈ l → ∃ x, v = some x ∧ contents ops k = some x := by
  obtain ⟨hinv, hrep⟩ := clone_spec hE hk hA hD L
  obtain ⟨hkey, hasc, hhold⟩ := listing hinv
  have hsub := (rvisits_sublist [] ((newTrie (V := V)).run (ops.filterMap SOp.call)).root).map keyed
  rw [List.map_reverse] at hsub
  refine ⟨_, _, fun n hn => riterate_spec hE _ hrep hinv.wf n (Nat.lt_of_lt_of_le (Nat.lt_succ_self _) hn), ?_, ?_⟩
  · exact (descending hasc).sublist hsub
  · intro k v hm
    exact (hhold k v).1 (List.mem_reverse.1 (hsub.subset hm))

/-- The claim of C13 for all unambiguous histories. -/
def RIterLaw (V : Type) : Prop := ∀ (E : Env V), E.Lawful → ∀ (ops : List (SOp V)), ClearOps [] ops → Apart E (along ops) →
  ∀ (D : Disk), D.ok → ∃ N l, (∀ n, N ≤ n → (after E D ops).t.riterate E noFaults realLimits (after E D ops).D n = some l) ∧
    Descending l ∧ Holding l (contents ops)

/-- **C13, refuted.** A key is left out when another stored key goes on from it with nibble 0. -/
theorem C13_refuted : ¬ RIterLaw Bytes := by
  intro h
  obtain ⟨N, l, h1, -, h2⟩ := h toyE toyE_lawful nested nested_clear nested_apart freshDisk freshDisk_ok
  have h3 : BTrie.riterate toyE noFaults realLimits (after toyE freshDisk nested).D (after toyE freshDisk nested).t 50 =
    some [([0x12, 0x34], some [2]), ([0x12, 0x01], some [3]), ([0x11, 0xFF], some [4])] := by decide +kernel
  have h4 := h1 (max N 50) (le_max_left _ _)
  rw [BTrie.riterate] at h3 h4
  rw [rcollect_le _ _ _ _ _ (le_max_right N 50) h3] at h4
  cases h4
  have := (h2 [0x12] (some [1])).2 ⟨[1], rfl, by decide +kernel⟩
  revert this
  decide +kernel

/-- Keys of one length, after deletion and reload. -/
example : (after toyE freshDisk demoCalls).t.riterate toyE noFaults realLimits (after toyE freshDisk demoCalls).D 50 =
    some [([0x52, 0x35], some [3]), ([0x12, 0x35], some [2])] := by
  decide +kernel

example : ∃ N l, (∀ n, N ≤ n → (after toyE freshDisk demoCalls).t.riterate toyE noFaults realLimits
    (after toyE freshDisk demoCalls).D n = some l) ∧ Descending l ∧ Holding l (contents demoCalls) :=
  C13_backward_partial toyE_lawful _ (prefixFree_fixed 2) demoCalls (by simp [demoCalls, SOp.key])
    (apart_fixed toyRtl_short demoCalls (by simp [demoCalls, SOp.key]) demoCalls_apart) freshDisk freshDisk_ok realLimits

end Verif.Trie.Store

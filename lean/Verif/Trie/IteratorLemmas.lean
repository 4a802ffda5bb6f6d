import Verif.Trie.Iterator
import Verif.Trie.StoreSteps
import Verif.Trie.CodecProps

/-!
# What the iterators visit
-/

namespace Verif.Trie.Store
open Verif Verif.Merkle Verif.Trie

variable {V : Type}

/-! ### The nodes of a tree in the order of their paths -/

/-- All nodes with their paths and values, a node before its children. -/
def visits : List Nib → Node V → List (List Nib × Option V)
  | _, .nil => []
  | q, .mk p v c => (q ++ p, v) :: nibbles.flatMap fun j => visits (q ++ p ++ [j]) (c j)

/-- The nodes below the children from position `k` on. -/
def kidsFrom (q : List Nib) (c : Nib → Node V) (k : Nat) : List (List Nib × Option V) :=
  (nibbles.drop k).flatMap fun j => visits (q ++ [j]) (c j)

/-- The nodes below the children before position `k`. -/
def kidsTo (q : List Nib) (c : Nib → Node V) (k : Nat) : List (List Nib × Option V) :=
  (nibbles.take k).flatMap fun j => visits (q ++ [j]) (c j)

theorem visits_mk (q p : List Nib) (v : Option V) (c : Nib → Node V) :
    visits q (.mk p v c) = (q ++ p, v) :: kidsFrom (q ++ p) c 0 := by
  simp [visits, kidsFrom]

theorem nibbles_length : nibbles.length = 16 := by simp [nibbles]

theorem nibbles_get (k : Nat) (h : k < nibbles.length) : nibbles[k] = ⟨k, by rwa [nibbles_length] at h⟩ := by
  simp [nibbles]

theorem split_at {a b : List Nib} {j : Nib} (h : nibbles = a ++ j :: b) : a = nibbles.take j.val ∧ b = nibbles.drop (j.val + 1) := by
  have hl : a.length < nibbles.length := by rw [h]; simp
  have hj : j.val = a.length := by
    have h1 := nibbles_get a.length hl
    have h2 : nibbles[a.length] = j := by simp [h]
    rw [h2] at h1
    rw [h1]
  rw [hj, h]
  simp

theorem drop_find {k : Nat} {f : Nib → Bool} {j : Nib} (h : (nibbles.drop k).find? f = some j) :
    ∃ a, nibbles.drop k = a ++ j :: nibbles.drop (j.val + 1) ∧ (∀ i ∈ a, f i = false) ∧ f j = true := by
  obtain ⟨hj, a, b, hab, ha⟩ := List.find?_eq_some_iff_append.1 h
  refine ⟨a, ?_, fun i hi => by simpa using ha i hi, hj⟩
  have : nibbles = (nibbles.take k ++ a) ++ j :: b := by
    rw [List.append_assoc, ← hab, List.take_append_drop]
  rw [hab, (split_at this).2]

theorem take_find {k : Nat} {f : Nib → Bool} {j : Nib} (h : (nibbles.take k).reverse.find? f = some j) :
    ∃ a, nibbles.take k = nibbles.take j.val ++ j :: a ∧ (∀ i ∈ a, f i = false) ∧ f j = true := by
  obtain ⟨hj, a, b, hab, ha⟩ := List.find?_eq_some_iff_append.1 h
  have hrev : nibbles.take k = b.reverse ++ j :: a.reverse := by
    have := congrArg List.reverse hab
    simpa using this
  refine ⟨a.reverse, ?_, fun i hi => by simpa using ha i (by simpa using hi), hj⟩
  have : nibbles = b.reverse ++ j :: (a.reverse ++ nibbles.drop k) := by
    have h2 := List.take_append_drop k nibbles
    rw [hrev] at h2
    simpa using h2.symm
  rw [hrev, (split_at this).1]

theorem visits_nil_of {c : Nib → Node V} {q : List Nib} {a : List Nib} (h : ∀ i ∈ a, (c i).isSome = false) :
    a.flatMap (fun j => visits (q ++ [j]) (c j)) = [] := by
  rw [List.flatMap_eq_nil_iff]
  intro i hi
  rw [(isSome_false _).1 (h i hi)]
  rfl

theorem kidsFrom_some {q : List Nib} {c : Nib → Node V} {k : Nat} {j : Nib}
    (h : (nibbles.drop k).find? (fun j => (c j).isSome) = some j) :
    kidsFrom q c k = visits (q ++ [j]) (c j) ++ kidsFrom q c (j.val + 1) ∧ (c j).isSome = true := by
  obtain ⟨a, h1, h2, h3⟩ := drop_find h
  refine ⟨?_, h3⟩
  rw [kidsFrom, h1, List.flatMap_append, visits_nil_of h2, List.flatMap_cons, kidsFrom]
  rfl

theorem kidsFrom_none {q : List Nib} {c : Nib → Node V} {k : Nat}
    (h : (nibbles.drop k).find? (fun j => (c j).isSome) = none) : kidsFrom q c k = [] :=
  visits_nil_of fun i hi => by
    have := List.find?_eq_none.1 h i hi
    simpa using this

theorem kidsTo_some {q : List Nib} {c : Nib → Node V} {k : Nat} {j : Nib}
    (h : (nibbles.take k).reverse.find? (fun j => (c j).isSome) = some j) :
    kidsTo q c k = kidsTo q c j.val ++ visits (q ++ [j]) (c j) ∧ (c j).isSome = true := by
  obtain ⟨a, h1, h2, h3⟩ := take_find h
  refine ⟨?_, h3⟩
  rw [kidsTo, h1, List.flatMap_append, List.flatMap_cons, visits_nil_of h2, kidsTo, List.append_nil]

theorem kidsTo_none {q : List Nib} {c : Nib → Node V} {k : Nat}
    (h : (nibbles.take k).reverse.find? (fun j => (c j).isSome) = none) : kidsTo q c k = [] :=
  visits_nil_of fun i hi => by
    have := List.find?_eq_none.1 h i (by simpa using hi)
    simpa using this

/-! ### Contents and order -/

theorem visits_path (q : List Nib) (n : Node V) : ∀ e ∈ visits q n, q <+: e.1 := by
  induction n generalizing q with
  | nil => simp [visits]
  | mk p v c ih =>
    intro e he
    rw [visits, List.mem_cons] at he
    rcases he with rfl | he
    · exact List.prefix_append _ _
    · obtain ⟨j, -, hj⟩ := List.mem_flatMap.1 he
      refine List.IsPrefix.trans ?_ (ih j _ e hj)
      rw [List.append_assoc]
      exact List.prefix_append _ _

theorem mem_visits (q : List Nib) (n : Node V) (r : List Nib) (x : V) :
    (r, some x) ∈ visits q n ↔ ∃ s, r = q ++ s ∧ lookup n s = some x := by
  induction n generalizing q with
  | nil => simp [visits, lookup]
  | mk p v c ih =>
    rw [visits, List.mem_cons]
    constructor
    · rintro (h | h)
      · obtain ⟨rfl, h2⟩ := Prod.mk.inj h
        exact ⟨p, rfl, by simp [← h2]⟩
      · obtain ⟨j, -, hj⟩ := List.mem_flatMap.1 h
        obtain ⟨s, rfl, hs⟩ := (ih j _).1 hj
        exact ⟨p ++ j :: s, by simp, by simp [hs]⟩
    · rintro ⟨s, rfl, hs⟩
      rcases query_cases p s with h | rfl | ⟨j, s', rfl⟩
      · rw [lookup_not_prefix _ _ h] at hs; simp at hs
      · left; simp at hs; rw [hs]
      · right
        simp at hs
        refine List.mem_flatMap.2 ⟨j, mem_nibbles j, (ih j _).2 ⟨s', by simp, hs⟩⟩

/-- Strictly before in the order of nibbles, a proper prefix before its extensions. -/
abbrev Before (a b : List Nib) : Prop := List.Lex (· < ·) a b

theorem before_append (q : List Nib) {a b : List Nib} (h : Before a b) : Before (q ++ a) (q ++ b) := by
  induction q with
  | nil => exact h
  | cons x q ih => exact List.Lex.cons ih

theorem before_prefix {a b : List Nib} (h : a <+: b) (hne : a ≠ b) : Before a b := by
  obtain ⟨r, rfl⟩ := h
  induction a with
  | nil =>
    cases r with
    | nil => simp at hne
    | cons x r => exact List.Lex.nil
  | cons x a ih => exact List.Lex.cons (ih (by simpa using hne))

theorem nibbles_sorted : nibbles.Pairwise (· < ·) := by
  rw [nibbles]
  exact List.pairwise_lt_finRange 16

theorem visits_sorted (q : List Nib) (n : Node V) : (visits q n).Pairwise fun a b => Before a.1 b.1 := by
  induction n generalizing q with
  | nil => simp [visits]
  | mk p v c ih =>
    rw [visits, List.pairwise_cons]
    constructor
    · intro e he
      obtain ⟨j, -, hj⟩ := List.mem_flatMap.1 he
      have hp := visits_path _ _ e hj
      apply before_prefix
      · exact (List.prefix_append _ _).trans hp
      · intro heq
        have := hp.length_le
        rw [← heq] at this
        simp at this
        omega
    · rw [List.pairwise_flatMap]
      refine ⟨fun j _ => ih j _, nibbles_sorted.imp ?_⟩
      intro a b hab x hx y hy
      obtain ⟨r, hr⟩ := visits_path _ _ x hx
      obtain ⟨s, hs⟩ := visits_path _ _ y hy
      rw [← hr, ← hs, show q ++ p ++ [a] ++ r = (q ++ p) ++ a :: r by simp, show q ++ p ++ [b] ++ s = (q ++ p) ++ b :: s by simp]
      exact before_append _ (List.Lex.rel hab)

/-! ### The forward machine -/

variable {E : Env V} {D : Disk}

theorem visit_spec (hE : E.Lawful) (g : UInt64) {b : BNode V} {p : List Nib} {v : Option V} {c : Nib → Node V}
    (h : Rep E D b (.mk p v c)) (hw : WFRoot (.mk p v c)) : ∃ i d, visit E D g b = .mk i d ∧ Full E D i d p v c := by
  obtain ⟨i, d, h1, h2⟩ := expand_spec hE g h hw
  obtain ⟨i', h3, h4, -⟩ := expandValue_spec hE h2.ok h2.kids
  refine ⟨i', d, ?_, h4⟩
  rw [visit, h1]
  simp only [h3]

theorem firstKid_eq {i : Info V} {d : Nib → BNode V} {c : Nib → Node V} (h : ∀ j, Rep E D (d j) (c j)) (k : Nat) :
    firstKid (.mk i d) k = (nibbles.drop k).find? fun j => (c j).isSome := by
  rw [firstKid]
  congr 1
  funext j
  exact (h j).isSome

theorem lastKid_eq {i : Info V} {d : Nib → BNode V} {c : Nib → Node V} (h : ∀ j, Rep E D (d j) (c j)) (k : Nat) :
    lastKid (.mk i d) k = (nibbles.take k).reverse.find? fun j => (c j).isSome := by
  rw [lastKid]
  congr 1
  funext j
  exact (h j).isSome

/-- A stack, and the nodes behind the positions its entries point to. -/
inductive Walk (E : Env V) (D : Disk) : List (Tr V) → List (List Nib × Option V) → Prop
  | nil : Walk E D [] []
  | cons {t : Tr V} {rest r i d p v c} : Walk E D rest r → t.node = .mk i d → Full E D i d p v c → WFRoot (.mk p v c) →
      Walk E D (t :: rest) (kidsFrom (pathOf rest ++ p) c t.from ++ r)

/-- A stack, and all nodes behind the current one. -/
inductive At (E : Env V) (D : Disk) : List (Tr V) → List (List Nib × Option V) → Prop
  | root {t : Tr V} {rest r} : t.index = none → Walk E D (t :: rest) r → At E D (t :: rest) r
  | child {t : Tr V} {rest r j i d p v c} : t.index = some j → t.node.kid j = .mk i d → Full E D i d p v c →
      WFRoot (.mk p v c) → Walk E D (t :: rest) r → At E D (t :: rest) (kidsFrom (pathOf (t :: rest) ++ p) c 0 ++ r)

theorem At.walk {st : List (Tr V)} {rem : List (List Nib × Option V)} (h : At E D st rem) : ∃ r, Walk E D st r := by
  cases h with
  | root _ h => exact ⟨_, h⟩
  | child _ _ _ _ h => exact ⟨_, h⟩

/-- The entry of a child. -/
def entryOf (st : List (Tr V)) : List Nib × Option V := (pathOf st ++ (here st).pre, (here st).value)

theorem to_spec (hE : E.Lawful) (g : UInt64) {rest : List (Tr V)} {r : List (List Nib × Option V)} (hr : Walk E D rest r)
    {i : Info V} {d : Nib → BNode V} {p : List Nib} {v : Option V} {c : Nib → Node V} (hf : Full E D i d p v c)
    (hw : WFRoot (.mk p v c)) {j : Nib} (hj : (c j).isSome = true) :
    ∃ rem, visits (pathOf rest ++ p ++ [j]) (c j) ++ (kidsFrom (pathOf rest ++ p) c (j.val + 1) ++ r) =
      entryOf (Tr.to E D g (.mk i d) j :: rest) :: rem ∧ At E D (Tr.to E D g (.mk i d) j :: rest) rem := by
  have hwj : WFRoot (c j) := WF.root (WFRoot.child hw j) hj
  cases hcj : c j with
  | nil => rw [hcj] at hj; simp [Node.isSome] at hj
  | mk p' v' c' =>
    have hk := hf.kids j
    rw [hcj] at hk hwj
    obtain ⟨i', d', he, hf'⟩ := visit_spec hE g hk hwj
    have hto : Tr.to E D g (.mk i d) j = ⟨some j, .mk i (setKid d j (.mk i' d'))⟩ := by
      rw [Tr.to]
      simp only [BNode.kid, BNode.setKid, he]
    have hfull : Full E D i (setKid d j (.mk i' d')) p v c := by
      refine hf.kid ?_
      rw [hcj]
      exact hf'.rep
    have hwalk : Walk E D (Tr.to E D g (.mk i d) j :: rest) (kidsFrom (pathOf rest ++ p) c (j.val + 1) ++ r) := by
      rw [hto]
      exact Walk.cons (t := ⟨some j, .mk i (setKid d j (.mk i' d'))⟩) hr rfl hfull hw
    have hat := At.child (t := Tr.to E D g (.mk i d) j) (j := j) (i := i') (d := d') (by rw [hto])
      (by rw [hto]; simp [BNode.kid, setKid]) hf' hwj hwalk
    have hpath : pathOf (Tr.to E D g (.mk i d) j :: rest) = pathOf rest ++ p ++ [j] := by
      rw [hto]
      simp [pathOf, Tr.path, BNode.pre, hf.ok.pre]
    have hhere : here (Tr.to E D g (.mk i d) j :: rest) = .mk i' d' := by
      rw [hto]
      simp [here, BNode.kid, setKid]
    refine ⟨_, ?_, hat⟩
    rw [visits_mk, entryOf, hhere, hpath, BNode.pre, BNode.value, hf'.ok.pre, hf'.value]
    simp

theorem siblings_spec (hE : E.Lawful) (g : UInt64) {st : List (Tr V)} {r : List (List Nib × Option V)} (h : Walk E D st r) :
    (siblings E D g st = none ∧ r = []) ∨
    ∃ st' rem, siblings E D g st = some st' ∧ r = entryOf st' :: rem ∧ At E D st' rem := by
  induction h with
  | nil => exact Or.inl ⟨rfl, rfl⟩
  | @cons t rest r i d p v c hr ht hf hw ih =>
    rw [siblings, ht, firstKid_eq hf.kids]
    cases hk : (nibbles.drop t.from).find? fun j => (c j).isSome with
    | some j =>
      right
      obtain ⟨h1, h2⟩ := kidsFrom_some (q := pathOf rest ++ p) hk
      obtain ⟨rem, h3, h4⟩ := to_spec hE g hr hf hw h2
      refine ⟨_, rem, rfl, ?_, h4⟩
      rw [h1, ← h3, List.append_assoc]
    | none =>
      rw [kidsFrom_none hk, List.nil_append]
      exact ih

theorem forward_spec (hE : E.Lawful) (g : UInt64) {st : List (Tr V)} {rem : List (List Nib × Option V)} (h : At E D st rem) :
    (forward E D g st = none ∧ rem = []) ∨
    ∃ st' rem', forward E D g st = some st' ∧ rem = entryOf st' :: rem' ∧ At E D st' rem' := by
  cases h with
  | @root t rest r hi hw =>
    have : forward E D g (t :: rest) = siblings E D g (t :: rest) := by
      have : firstKid (.nil : BNode V) 0 = none := by
        rw [firstKid, List.find?_eq_none]
        intro x _
        simp [BNode.kid, BNode.isSome]
      rw [forward, Tr.current, hi]
      simp only [this]
    rw [this]
    exact siblings_spec hE g hw
  | @child t rest r j i d p v c hi hn hf hwf hw =>
    rw [forward, Tr.current, hi]
    simp only
    rw [hn, firstKid_eq hf.kids]
    cases hk : (nibbles.drop 0).find? fun j => (c j).isSome with
    | some j' =>
      right
      obtain ⟨h1, h2⟩ := kidsFrom_some (q := pathOf (t :: rest) ++ p) hk
      obtain ⟨rem, h3, h4⟩ := to_spec hE g hw hf hwf h2
      refine ⟨_, rem, rfl, ?_, h4⟩
      rw [h1, ← h3, List.append_assoc]
    | none =>
      rw [kidsFrom_none hk, List.nil_append]
      exact siblings_spec hE g hw

theorem nextF_spec (hE : E.Lawful) (g : UInt64) (root : BNode V) : ∀ (f : Nat) {st : List (Tr V)}
    {rem : List (List Nib × Option V)}, At E D st rem → rem.length < f →
    (nextF E D g root f (.at st) = some .ended ∧ rem.filter (fun e => e.2.isSome) = []) ∨
    ∃ st' rem', nextF E D g root f (.at st) = some (.at st') ∧ (entryOf st').2.isSome = true ∧ rem'.length < rem.length ∧
      rem.filter (fun e => e.2.isSome) = entryOf st' :: rem'.filter (fun e => e.2.isSome) ∧ At E D st' rem' := by
  intro f
  induction f with
  | zero => intro st rem _ hl; omega
  | succ f ih =>
    intro st rem hat hl
    rcases forward_spec hE g hat with ⟨h1, h2⟩ | ⟨st', rem', h1, h2, h3⟩
    · left
      rw [nextF, h1, h2]
      exact ⟨rfl, rfl⟩
    · rw [nextF, h1]
      simp only
      rw [h2] at hl ⊢
      by_cases hv : (entryOf st').2.isSome = true
      · right
        refine ⟨st', rem', ?_, hv, by simp, ?_, h3⟩
        · exact if_pos hv
        · exact List.filter_cons_of_pos (p := fun e : List Nib × Option V => e.2.isSome) hv
      · rw [List.filter_cons_of_neg (p := fun e : List Nib × Option V => e.2.isSome) hv, if_neg (show ¬ (here st').value.isSome = true from hv)]
        rcases ih h3 (by simp at hl; omega) with h | ⟨st2, rem2, e1, e2, e3, e4, e5⟩
        · exact Or.inl h
        · exact Or.inr ⟨st2, rem2, e1, e2, by simp; omega, e4, e5⟩

/-- What `Current` makes of a visited node. -/
def keyed (e : List Nib × Option V) : Bytes × Option V := (prefixToKeystring (e.1.map nibByte), e.2)

theorem currentOf_even {q : List Nib} (v : Option V) (h : q.length % 2 = 0) : currentOf q v = .ok (keyed (q, v)) := by
  rw [currentOf]
  split
  · rename_i hq
    subst hq
    rfl
  · rw [if_neg (by omega)]
    rfl

theorem collect_spec (hE : E.Lawful) (g : UInt64) (root : BNode V) : ∀ (f : Nat) {st : List (Tr V)}
    {rem : List (List Nib × Option V)}, At E D st rem → rem.length + 1 < f →
    (∀ e ∈ rem, e.2.isSome = true → e.1.length % 2 = 0) →
    collect E D g root f (.at st) = .ok ((rem.filter fun e => e.2.isSome).map keyed) := by
  intro f
  induction f with
  | zero => intro st rem _ hl; omega
  | succ f ih =>
    intro st rem hat hl hev
    rw [collect]
    rcases nextF_spec hE g root f hat (by omega) with ⟨h1, h2⟩ | ⟨st', rem', h1, h2, h3, h4, h5⟩
    · rw [h1, h2]
      rfl
    · have hmem : ∀ e ∈ entryOf st' :: rem'.filter (fun e => e.2.isSome), e ∈ rem := by
        intro e he
        rw [← h4] at he
        exact (List.mem_filter.1 he).1
      rw [h1, h4]
      have hc : current (.at st') = .ok (keyed (entryOf st')) :=
        currentOf_even _ (hev _ (hmem _ List.mem_cons_self) h2)
      simp only [hc]
      rw [ih h5 (by omega) (fun e he hs => hev e (hmem e (List.mem_cons_of_mem _ (List.mem_filter.2 ⟨he, hs⟩))) hs)]
      rfl

/-- The whole walk. -/
theorem iterate_spec (hE : E.Lawful) (g : UInt64) {b : BNode V} {a : Node V} (h : Rep E D b a) (hw : WFRoot a)
    (hev : ∀ e ∈ visits [] a, e.2.isSome = true → e.1.length % 2 = 0) (f : Nat) (hf : (visits [] a).length + 1 < f) :
    collect E D g b f .fresh = .ok (((visits [] a).filter fun e => e.2.isSome).map keyed) := by
  cases a with
  | nil => exact hw.elim
  | mk p v c =>
    obtain ⟨i, d, he, hfull⟩ := visit_spec hE g h hw
    have hat : At E D [⟨none, .mk i d⟩] (kidsFrom p c 0) := by
      refine At.root rfl ?_
      have := Walk.cons (t := ⟨none, .mk i d⟩) Walk.nil rfl hfull hw
      simpa [pathOf, Tr.from] using this
    have hen : entryOf [⟨none, visit E D g b⟩] = (p, v) := by
      rw [he]
      simp [entryOf, pathOf, Tr.path, here, BNode.pre, BNode.value, hfull.ok.pre, hfull.value]
    have hval : (visit E D g b).value = v := by rw [he]; exact hfull.value
    rw [visits_mk, List.nil_append] at hev hf ⊢
    match f, hf with
    | f + 1, hf =>
      have hl : (kidsFrom p c 0).length + 2 < f + 1 := by simp at hf; omega
      rw [collect]
      match f, hl with
      | f + 1, hl =>
        rw [nextF, hval]
        cases v with
        | some x =>
          simp only [Option.isSome_some, if_true]
          have hc : current (.at [⟨none, visit E D g b⟩]) = .ok (keyed (p, some x)) := by
            have h2 : (pathOf [⟨none, visit E D g b⟩] ++ (here [⟨none, visit E D g b⟩]).pre,
              (here [⟨none, visit E D g b⟩]).value) = (p, some x) := hen
            rw [current, (Prod.mk.inj h2).1, (Prod.mk.inj h2).2]
            exact currentOf_even _ (hev _ List.mem_cons_self rfl)
          rw [hc]
          simp only
          rw [he, collect_spec hE g b (f + 1) hat (by omega) (fun e hm => hev e (List.mem_cons_of_mem _ hm))]
          rw [List.filter_cons_of_pos (by rfl)]
          rfl
        | none =>
          simp only [Option.isSome_none, Bool.false_eq_true, if_false]
          rw [List.filter_cons_of_neg (by simp)]
          have hev' : ∀ e ∈ kidsFrom p c 0, e.2.isSome = true → e.1.length % 2 = 0 :=
            fun e hm => hev e (List.mem_cons_of_mem _ hm)
          rw [he]
          rcases nextF_spec hE g b f hat (by omega) with ⟨h1, h2⟩ | ⟨st', rem', h1, h2, h3, h4, h5⟩
          · rw [h1, h2]
            rfl
          · have hmem : ∀ e ∈ entryOf st' :: rem'.filter (fun e => e.2.isSome), e ∈ kidsFrom p c 0 := by
              intro e he
              rw [← h4] at he
              exact (List.mem_filter.1 he).1
            rw [h1, h4]
            have hc : current (.at st') = .ok (keyed (entryOf st')) :=
              currentOf_even _ (hev' _ (hmem _ List.mem_cons_self) h2)
            simp only [hc]
            rw [collect_spec hE g b (f + 1) h5 (by omega)
              (fun e he hs => hev' e (hmem e (List.mem_cons_of_mem _ (List.mem_filter.2 ⟨he, hs⟩))) hs)]
            rfl

end Verif.Trie.Store

import Verif.Conc.RW
import Verif.Trie.Combined

/-!
# Property C146: the trie of tries under concurrent use (/repo/trie/combinedtrie.go:127-192, 318-356)

Every access to the map or the keys is one atomic step, and so is a call of `HashValue` of a sub-trie, which has its own lock.  The
sub-tries are changed by others at any moment: `Poss t r` tells what `HashValue` of the sub-trie `t` may answer.
-/

namespace Verif.Combined
open Verif Verif.Merkle Verif.Trie Verif.Conc

variable {P : Type}

/-- The shared memory: the map and the keys, and what the sub-tries hash to now. -/
structure CMem (P : Type) where
  comb : Comb P
  hv : P → Res Bytes

/-- The calls; arguments as in `Comb.get`, `Comb.put`. -/
inductive CCall (P : Type) where
  | get (k : Option Bytes) | put (k : Option Bytes) (v : Option P) | del (k : Option Bytes) | keys | hash | proof (k : Option Bytes)

/-- What they return. -/
inductive CAns (P : Type) where
  | got (v : Option P) | flag (b : Bool) | old (v : Option P) | keys (l : List Bytes) | hash (r : Res Bytes)
  | proof (r : Res (Option (Option P × List NodeProof))) | panic

/-- The loop of `computeHash` (`/repo/trie/combinedtrie.go:97-108`), step by step. -/
def hashLoop (k : Res (List Bytes) → Prog (CMem P) (CAns P)) : List Bytes → List Bytes → Prog (CMem P) (CAns P)
  | [], acc => k (.ok acc)
  | x :: ks, acc => .step id fun s =>
    match s.comb.vm x with
    | none => hashLoop k ks acc
    | some t => .step id fun s =>
      match s.hv t with
      | .ok h => hashLoop k ks (acc ++ [h])
      | .err => k .err
      | .panic => k .panic

/-- The methods (`/repo/trie/combinedtrie.go:127-192, 318-356`), between taking and leaving the lock. -/
def cbody (H : Bytes → Bytes) : CCall P → Prog (CMem P) (CAns P)
  | .get none => .ret (.got none)
  | .get (some k) => .step id fun s => .ret (.got (s.comb.vm k))
  | .put (some k) (some t) =>
    .step (fun s => { s with comb := { s.comb with vm := fun x => if x = k then some t else s.comb.vm x } }) fun s =>
      if (s.comb.vm k).isSome then .ret (.flag true)
      else .step (fun s => { s with comb := { s.comb with keys := addKey s.comb.keys k } }) fun _ => .ret (.flag true)
  | .put _ _ => .ret (.flag false)
  | .del none => .ret (.old none)
  | .del (some k) => .step id fun s =>
    match s.comb.vm k with
    | none => .ret (.old none)
    | some t =>
      .step (fun s => { s with comb := { s.comb with vm := fun x => if x = k then none else s.comb.vm x } }) fun _ =>
        .step (fun s => { s with comb := { s.comb with keys := match deleteKey s.comb.keys k with | .ok ks => ks | _ => s.comb.keys } }) fun s =>
          match deleteKey s.comb.keys k with
          | .ok _ => .ret (.old (some t))
          | _ => .ret .panic
  | .keys => .step id fun s => .ret (.keys s.comb.keys)
  | .hash => .step id fun s =>
    if s.comb.keys = [] then .ret (.hash (.ok (nilHash H)))
    else hashLoop (fun r => .ret (.hash (match r with
      | .ok hs => .ok (merkleHashComplete H hs 0 none).1
      | .err => .err
      | .panic => .panic))) s.comb.keys []
  | .proof none => .ret (.proof (.ok none))
  | .proof (some k) => .step id fun s =>
    let i := s.comb.keys.findIdx (· == k)
    if i < s.comb.keys.length then
      .step id fun s' => hashLoop (fun r => .ret (.proof (match r with
        | .ok hs => .ok (some (s'.comb.vm k, [newNodeProof proofMerkleOnly ⟨0, [], 0, 0⟩ none (merkleHashComplete H hs i (some newProofs)).2]))
        | .err => .ok none
        | .panic => .panic))) s.comb.keys []
    else .ret (.proof (.ok none))

/-- Which methods call `Lock`, and which `RLock`. -/
def cwrites : CCall P → Bool
  | .put _ _ => true
  | .del _ => true
  | .hash => true
  | _ => false

/-- Others change the sub-tries. -/
def Moves (Poss : P → Res Bytes → Prop) (s s' : CMem P) : Prop :=
  s'.comb = s.comb ∧ ∀ t, Poss t (s'.hv t) ∨ s'.hv t = s.hv t

/-! ### The specification -/

/-- The sorted list of the keys of a map. -/
def Domain (m : Bytes → Option P) (ks : List Bytes) : Prop := StrictSorted bytesCompare ks ∧ ∀ k, k ∈ ks ↔ (m k).isSome

/-- What asking the sub-tries of the keys one after another may give. -/
inductive Asked (Poss : P → Res Bytes → Prop) (m : Bytes → Option P) : List Bytes → Res (List Bytes) → Prop
  | nil : Asked Poss m [] (.ok [])
  | cons {k t h ks hs} : m k = some t → Poss t (.ok h) → Asked Poss m ks (.ok hs) → Asked Poss m (k :: ks) (.ok (h :: hs))
  | skip {k t h ks r} : m k = some t → Poss t (.ok h) → Asked Poss m ks r → (∀ hs, r ≠ .ok hs) → Asked Poss m (k :: ks) r
  | err {k t ks} : m k = some t → Poss t .err → Asked Poss m (k :: ks) .err
  | panic {k t ks} : m k = some t → Poss t .panic → Asked Poss m (k :: ks) .panic

/-- What a call may do and answer on a map from keys to sub-tries. -/
def callowed (H : Bytes → Bytes) (Poss : P → Res Bytes → Prop) : CCall P → (Bytes → Option P) → (Bytes → Option P) → CAns P → Prop
  | .get k, m, m', r => m' = m ∧ r = .got (k.bind m)
  | .put k v, m, m', r => match k, v with
    | some k, some t => m' = (fun x => if x = k then some t else m x) ∧ r = .flag true
    | _, _ => m' = m ∧ r = .flag false
  | .del k, m, m', r => match k with
    | some k => m' = (fun x => if x = k then none else m x) ∧ r = .old (m k)
    | none => m' = m ∧ r = .old none
  | .keys, m, m', r => m' = m ∧ ∃ ks, Domain m ks ∧ r = .keys ks
  | .hash, m, m', r => m' = m ∧ ∃ ks, Domain m ks ∧ ∃ x, Asked Poss m ks x ∧ r = .hash (match x with
      | .ok hs => .ok (if hs = [] then H [] else (merkleHashComplete H hs 0 none).1)
      | .err => .err
      | .panic => .panic)
  | .proof k, m, m', r => m' = m ∧ match k.bind fun k => (m k).map fun t => (k, t) with
    | none => r = .proof (.ok none)
    | some (k, t) => ∃ ks, Domain m ks ∧ ∃ i : Nat, ks[i]? = some k ∧ ∃ x, Asked Poss m ks x ∧ r = .proof (match x with
      | .ok hs => .ok (some (some t, [newNodeProof proofMerkleOnly ⟨0, [], 0, 0⟩ none (merkleHashComplete H hs i (some newProofs)).2]))
      | .err => .ok none
      | .panic => .panic)

/-! ### Correctness -/

/-- The map. -/
def cmap (s : CMem P) : Bytes → Option P := s.comb.vm

/-- The keys are those of the map, and the sub-tries answer what they may. -/
def CInv (Poss : P → Res Bytes → Prop) (s : CMem P) : Prop := Inv s.comb ∧ ∀ t, Poss t (s.hv t)

theorem asked_snoc {Poss : P → Res Bytes → Prop} {m : Bytes → Option P} {pre ks : List Bytes} {acc : List Bytes} {r : Res (List Bytes)}
    (h : Asked Poss m pre (.ok acc)) (hr : Asked Poss m ks r) :
    Asked Poss m (pre ++ ks) (match r with | .ok hs => .ok (acc ++ hs) | .err => .err | .panic => .panic) := by
  generalize hx : (Res.ok acc : Res (List Bytes)) = x at h
  induction h generalizing acc with
  | nil =>
    cases hx
    cases r <;> exact hr
  | cons h1 h2 h3 ih =>
    cases hx
    have := ih rfl
    cases r with
    | ok hs => exact .cons h1 h2 this
    | err => exact .skip h1 h2 this (by simp)
    | panic => exact .skip h1 h2 this (by simp)
  | skip h1 h2 h3 h4 ih => exact absurd hx.symm (h4 acc)
  | err => cases hx
  | panic => cases hx

/-- The loop, run by a reader. -/
theorem reads_loop {H : Bytes → Bytes} {Poss : P → Res Bytes → Prop} {o : CCall P} {m : Bytes → Option P} (k : Res (List Bytes) → Prog (CMem P) (CAns P))
    (all : List Bytes) (hk : ∀ r, Asked Poss m all r → Reads cmap (CInv Poss) (callowed H Poss) o m (k r)) (hm : ∀ x ∈ all, (m x).isSome)
    (ks pre : List Bytes) (he : all = pre ++ ks) (acc : List Bytes) (hacc : Asked Poss m pre (.ok acc)) :
    Reads cmap (CInv Poss) (callowed H Poss) o m (hashLoop k ks acc) := by
  induction ks generalizing pre acc with
  | nil =>
    refine hk _ ?_
    rw [he, List.append_nil]
    exact hacc
  | cons x ks ih =>
    intro s hI hs
    refine ⟨hI, hs, ?_⟩
    dsimp only
    have hx : (m x).isSome := hm x (by rw [he]; simp)
    have hvx : s.comb.vm x = m x := by rw [← hs]; rfl
    rw [hvx]
    cases hmx : m x with
    | none => rw [hmx] at hx; cases hx
    | some t =>
      intro s hI hs
      refine ⟨hI, hs, ?_⟩
      dsimp only
      have hp := hI.2 t
      cases hh : s.hv t with
      | ok h =>
        rw [hh] at hp
        refine ih (pre ++ [x]) (by rw [he]; simp) (acc ++ [h]) ?_
        exact asked_snoc hacc (.cons hmx hp .nil)
      | err =>
        rw [hh] at hp
        refine hk _ ?_
        rw [he]
        exact asked_snoc hacc (.err hmx hp)
      | panic =>
        rw [hh] at hp
        refine hk _ ?_
        rw [he]
        exact asked_snoc hacc (.panic hmx hp)

theorem moves_inv {Poss : P → Res Bytes → Prop} {s s' : CMem P} (hI : CInv Poss s) (h : Moves Poss s s') : CInv Poss s' ∧ cmap s' = cmap s := by
  refine ⟨⟨by rw [h.1]; exact hI.1, fun t => ?_⟩, by simp only [cmap, h.1]⟩
  rcases h.2 t with g | g
  · exact g
  · rw [g]; exact hI.2 t

/-- The loop, run by a writer. -/
theorem writes_loop {H : Bytes → Bytes} {Poss : P → Res Bytes → Prop} {o : CCall P} {m : Bytes → Option P} (k : Res (List Bytes) → Prog (CMem P) (CAns P))
    (all : List Bytes)
    (hk : ∀ r, Asked Poss m all r → ∀ s, CInv Poss s → cmap s = m → Writes cmap (CInv Poss) (Moves Poss) (callowed H Poss) o m (k r) s)
    (hm : ∀ x ∈ all, (m x).isSome)
    (ks pre : List Bytes) (he : all = pre ++ ks) (acc : List Bytes) (hacc : Asked Poss m pre (.ok acc)) (s : CMem P) (hI : CInv Poss s) (hs : cmap s = m) :
    Writes cmap (CInv Poss) (Moves Poss) (callowed H Poss) o m (hashLoop k ks acc) s := by
  induction ks generalizing pre acc s with
  | nil =>
    refine hk _ ?_ s hI hs
    rw [he, List.append_nil]
    exact hacc
  | cons x ks ih =>
    intro s1 hs1
    obtain ⟨hI1, he1⟩ := moves_inv hI hs1
    dsimp only [id]
    have hx : (m x).isSome := hm x (by rw [he]; simp)
    have hvx : s1.comb.vm x = m x := by rw [← hs, ← he1]; rfl
    rw [hvx]
    cases hmx : m x with
    | none => rw [hmx] at hx; cases hx
    | some t =>
      intro s2 hs2
      obtain ⟨hI2, he2⟩ := moves_inv hI1 hs2
      have hs' : cmap s2 = m := he2.trans (he1.trans hs)
      dsimp only [id]
      have hp := hI2.2 t
      cases hh : s2.hv t with
      | ok h =>
        rw [hh] at hp
        refine ih (pre ++ [x]) (by rw [he]; simp) (acc ++ [h]) ?_ s2 hI2 hs'
        exact asked_snoc hacc (.cons hmx hp .nil)
      | err =>
        rw [hh] at hp
        refine hk _ ?_ s2 hI2 hs'
        rw [he]
        exact asked_snoc hacc (.err hmx hp)
      | panic =>
        rw [hh] at hp
        refine hk _ ?_ s2 hI2 hs'
        rw [he]
        exact asked_snoc hacc (.panic hmx hp)

theorem asked_nil {Poss : P → Res Bytes → Prop} {m : Bytes → Option P} {ks : List Bytes} {hs : List Bytes} (h : Asked Poss m ks (.ok hs)) :
    hs.length = ks.length := by
  generalize hx : (Res.ok hs : Res (List Bytes)) = x at h
  induction h generalizing hs with
  | nil => cases hx; rfl
  | cons _ _ _ ih => cases hx; simp [ih rfl]
  | skip _ _ _ h4 _ => exact absurd hx.symm (h4 hs)
  | err => cases hx
  | panic => cases hx

theorem ccorrect (H : Bytes → Bytes) (Poss : P → Res Bytes → Prop) :
    Correct cmap (CInv Poss) (Moves Poss) (callowed H Poss) (cbody H) cwrites where
  refl := fun s => ⟨rfl, fun _ => Or.inr rfl⟩
  trans := fun s s' s'' h h' => ⟨h'.1.trans h.1, fun t => by
    rcases h'.2 t with g | g
    · exact Or.inl g
    · rw [g]; exact h.2 t⟩
  harmless := fun s s' hI h => moves_inv hI h
  reader := by
    intro o ho m
    cases o with
    | get k =>
      cases k with
      | none => exact ⟨rfl, rfl⟩
      | some k =>
        intro s hI hs
        refine ⟨hI, hs, rfl, ?_⟩
        rw [← hs]
        rfl
    | put => cases ho
    | del => cases ho
    | hash => cases ho
    | keys =>
      intro s hI hs
      refine ⟨hI, hs, rfl, s.comb.keys, ?_, rfl⟩
      rw [← hs]
      exact ⟨hI.1.sorted, hI.1.dom⟩
    | proof k =>
      cases k with
      | none => exact ⟨rfl, rfl⟩
      | some k =>
        intro s hI hs
        refine ⟨hI, hs, ?_⟩
        dsimp only
        have hdom : Domain m s.comb.keys := by
          rw [← hs]
          exact ⟨hI.1.sorted, hI.1.dom⟩
        by_cases hk : k ∈ s.comb.keys
        · have hlt : s.comb.keys.findIdx (· == k) < s.comb.keys.length := List.findIdx_lt_length_of_exists ⟨k, hk, by simp⟩
          rw [if_pos hlt]
          have hget : s.comb.keys[s.comb.keys.findIdx (· == k)]? = some k := by
            rw [List.getElem?_eq_getElem hlt]
            have := List.findIdx_getElem (w := hlt)
            simp only [beq_iff_eq] at this
            rw [this]
          have hsome := (hdom.2 k).1 hk
          obtain ⟨t, ht⟩ := Option.isSome_iff_exists.1 hsome
          intro s' hI' hs'
          refine ⟨hI', hs', ?_⟩
          refine reads_loop _ s.comb.keys ?_ (fun x hx => (hdom.2 x).1 hx) s.comb.keys [] rfl [] .nil
          intro r hr
          refine ⟨rfl, ?_⟩
          simp only [Option.bind_some, ht, Option.map_some]
          refine ⟨s.comb.keys, hdom, _, hget, r, hr, ?_⟩
          have : s'.comb.vm k = some t := by
            rw [← ht, ← hs']
            rfl
          rw [this]
        · have hge : ¬ s.comb.keys.findIdx (· == k) < s.comb.keys.length := by
            intro h
            rw [List.findIdx_lt_length] at h
            obtain ⟨x, hx, he⟩ := h
            simp only [beq_iff_eq] at he
            exact hk (he ▸ hx)
          rw [if_neg hge]
          refine ⟨rfl, ?_⟩
          have : m k = none := by
            cases hm : m k with
            | none => rfl
            | some t => exact absurd ((hdom.2 k).2 (by rw [hm]; rfl)) hk
          simp only [Option.bind_some, this, Option.map_none]
  writer := by
    intro o ho s hI
    cases o with
    | get => cases ho
    | keys => cases ho
    | proof => cases ho
    | put k v =>
      cases k with
      | none => cases v <;> exact ⟨hI, rfl, rfl⟩
      | some k =>
        cases v with
        | none => exact ⟨hI, rfl, rfl⟩
        | some t =>
          intro s1 hs1
          obtain ⟨hI1, he1⟩ := moves_inv hI hs1
          dsimp only
          rw [← he1]
          obtain ⟨c', e1, e2, e3⟩ := step_spec hI1.1 (.put (some k) (some t))
          simp only [step, Comb.put, Res.ok.injEq, Prod.mk.injEq] at e1
          cases hk : (s1.comb.vm k).isSome with
          | true =>
            refine ⟨⟨?_, hI1.2⟩, rfl, rfl⟩
            rw [← e1.1, hk] at e3
            exact e3
          | false =>
            intro s2 hs2
            refine ⟨⟨?_, ?_⟩, ?_, rfl⟩
            · rw [← e1.1, hk] at e3
              simp only [hs2.1]
              exact e3
            · intro t'
              rcases hs2.2 t' with g | g
              · exact g
              · simp only [g]; exact hI1.2 t'
            · simp only [cmap, hs2.1]
    | del k =>
      cases k with
      | none => exact ⟨hI, rfl, rfl⟩
      | some k =>
        intro s1 hs1
        obtain ⟨hI1, he1⟩ := moves_inv hI hs1
        dsimp only [id]
        rw [← he1]
        obtain ⟨c', e1, e2, e3⟩ := step_spec hI1.1 (.delete (some k))
        simp only [step, Comb.delete] at e1
        cases hk : s1.comb.vm k with
        | none =>
          refine ⟨hI1, ?_, ?_⟩
          · funext x
            simp only [cmap]
            split
            · next h => rw [h, hk]
            · rfl
          · simp only [cmap, hk]
        | some t =>
          intro s2 hs2 s3 hs3
          rw [hk] at e1
          obtain ⟨ks, h1, h2, h3⟩ := deleteKey_spec hI1.1.sorted ((hI1.1.dom k).mpr (by rw [hk]; rfl))
          have hkeys : s3.comb.keys = s1.comb.keys := by rw [hs3.1]; simp only [hs2.1]
          have hvm : s3.comb.vm = fun x => if x = k then none else s1.comb.vm x := by rw [hs3.1]; simp only [hs2.1]
          rw [h1] at e1
          simp only [Res.ok.injEq, Prod.mk.injEq] at e1
          dsimp only
          rw [hkeys, h1]
          refine ⟨⟨?_, ?_⟩, ?_, ?_⟩
          · rw [← e1.1] at e3
            simp only [hvm]
            exact e3
          · intro t'
            rcases hs3.2 t' with g | g
            · exact g
            · simp only [g]
              rcases hs2.2 t' with g' | g'
              · exact g'
              · rw [g']; exact hI1.2 t'
          · simp only [cmap, hvm]
          · simp only [cmap, hk]
    | hash =>
      intro s1 hs1
      obtain ⟨hI1, he1⟩ := moves_inv hI hs1
      dsimp only [id]
      rw [← he1]
      have hdom : Domain (cmap s1) s1.comb.keys := ⟨hI1.1.sorted, hI1.1.dom⟩
      split
      · next h0 =>
        refine ⟨hI1, rfl, s1.comb.keys, hdom, .ok [], ?_, rfl⟩
        rw [h0]
        exact .nil
      · next h0 =>
        refine writes_loop _ s1.comb.keys ?_ (fun x hx => (hdom.2 x).1 hx) s1.comb.keys [] rfl [] .nil s1 hI1 rfl
        intro r hr s2 hI2 hs2
        refine ⟨hI2, hs2, s1.comb.keys, hdom, r, hr, ?_⟩
        cases r with
        | ok hs =>
          have := asked_nil hr
          have hne : hs ≠ [] := by
            rintro rfl
            exact h0 (List.length_eq_zero_iff.1 this.symm)
          simp only [if_neg hne]
        | err => rfl
        | panic => rfl

/-! ### The claims -/

/-- **C146**: whatever the goroutines do and however the sub-tries change, the calls that have returned, in the order in which they
returned, are what a map could have answered one call at a time, the sub-tries being asked one after another; and each goroutine's calls
are among them in its order. -/
theorem C146_linearizable (H : Bytes → Bytes) (Poss : P → Res Bytes → Prop) (hv : P → Res Bytes) (hp : ∀ t, Poss t (hv t))
    (todo : Nat → List (CCall P)) (c : RW (CMem P) (CCall P) (CAns P))
    (h : RWSteps (cbody H) cwrites (Moves Poss) (rwInitial _ _ ⟨new P, hv⟩ todo) c) :
    (∃ m, Explains (callowed H Poss) (fun _ => none) c.log m) ∧ ∀ t, callsOf t c.log <+: todo t := by
  obtain ⟨⟨a, ha, -⟩, ho⟩ := rw_linearizable (ccorrect H Poss) ⟨new P, hv⟩ ⟨inv_new, hp⟩ todo h
  exact ⟨⟨a, ha⟩, fun t => ⟨_, by rw [ho t, List.append_assoc]⟩⟩

/-- **C146**: as long as some goroutine has calls to finish, some goroutine can go on. -/
theorem C146_progress (H : Bytes → Bytes) (Poss : P → Res Bytes → Prop) (hv : P → Res Bytes) (hp : ∀ t, Poss t (hv t))
    (todo : Nat → List (CCall P)) (c : RW (CMem P) (CCall P) (CAns P))
    (h : RWSteps (cbody H) cwrites (Moves Poss) (rwInitial _ _ ⟨new P, hv⟩ todo) c) (t : Nat) (ht : callsOf t c.log ≠ todo t) :
    ∃ c', RWStep (cbody H) cwrites (fun _ _ => False) c c' :=
  rw_progress (ccorrect H Poss) ⟨new P, hv⟩ ⟨inv_new, hp⟩ todo h t ht

theorem asked_static {hv : P → Res Bytes} {m : Bytes → Option P} {ks : List Bytes} {r : Res (List Bytes)}
    (h : Asked (fun t r => r = hv t) m ks r) : r = hashes hv m ks := by
  induction h with
  | nil => rfl
  | cons h1 h2 _ ih => simp only [hashes, h1, ← h2, ← ih]
  | @skip k t h ks r h1 h2 _ h4 ih =>
    simp only [hashes, h1, ← h2, ← ih]
    cases r with
    | ok hs => exact absurd rfl (h4 hs)
    | err => rfl
    | panic => rfl
  | err h1 h2 => simp only [hashes, h1, ← h2]
  | panic h1 h2 => simp only [hashes, h1, ← h2]

/-- The specification with sub-tries that hash to `hv`: a hash or a proof is that of the map. -/
def cexact (H : Bytes → Bytes) (hv : P → Res Bytes) (o : CCall P) (m m' : Bytes → Option P) (r : CAns P) : Prop :=
  match o with
  | .hash => m' = m ∧ ∃ ks, Domain m ks ∧ r = .hash (Comb.hash H hv ⟨ks, m⟩)
  | .proof k => m' = m ∧ ∃ ks, Domain m ks ∧ r = .proof (Comb.getProof H hv ⟨ks, m⟩ k)
  | o => callowed H (fun _ _ => False) o m m' r

theorem exists_domain (H : Bytes → Bytes) {hv : P → Res Bytes} {m0 m : Bytes → Option P} {log : List (Nat × CCall P × CAns P)}
    (h : Explains (callowed H (fun t r => r = hv t)) m0 log m) (h0 : ∃ ks, Domain m0 ks) : ∃ ks, Domain m ks := by
  induction h with
  | nil => exact h0
  | snoc t o r _ hs ih =>
    obtain ⟨ks, hd⟩ := ih
    rename_i m' m'' _
    cases o with
    | get k => rw [hs.1]; exact ⟨ks, hd⟩
    | keys => rw [hs.1]; exact ⟨ks, hd⟩
    | hash => rw [hs.1]; exact ⟨ks, hd⟩
    | proof k => rw [hs.1]; exact ⟨ks, hd⟩
    | put k v =>
      obtain ⟨c', -, e2, e3⟩ := step_spec (c := ⟨ks, m'⟩) ⟨hd.1, hd.2⟩ (.put k v)
      refine ⟨c'.keys, e3.sorted, fun x => ?_⟩
      rw [e3.dom, e2]
      cases k with
      | none => rw [hs.1]; rfl
      | some k =>
        cases v with
        | none => rw [hs.1]; rfl
        | some t => rw [hs.1]; rfl
    | del k =>
      obtain ⟨c', -, e2, e3⟩ := step_spec (c := ⟨ks, m'⟩) ⟨hd.1, hd.2⟩ (.delete k)
      refine ⟨c'.keys, e3.sorted, fun x => ?_⟩
      rw [e3.dom, e2]
      cases k with
      | none => rw [hs.1]; rfl
      | some k => rw [hs.1]; rfl

theorem static_step {H : Bytes → Bytes} {hv : P → Res Bytes} {o : CCall P} {m m' : Bytes → Option P} {r : CAns P} (hd : ∃ ks, Domain m ks)
    (h : callowed H (fun t r => r = hv t) o m m' r) : cexact H hv o m m' r := by
  cases o with
  | get k => exact h
  | put k v => exact h
  | del k => exact h
  | keys => exact h
  | hash =>
    obtain ⟨h1, ks, h2, x, h3, h4⟩ := h
    refine ⟨h1, ks, h2, ?_⟩
    have hl := h3
    have hx := asked_static h3
    rw [h4]
    congr 1
    simp only [Comb.hash, ← hx]
    cases x with
    | ok hs =>
      have := asked_nil hl
      by_cases h0 : ks = []
      · subst h0
        have : hs = [] := List.length_eq_zero_iff.1 this
        simp [this, nilHash]
      · have : hs ≠ [] := by
          rintro rfl
          exact h0 (List.length_eq_zero_iff.1 this.symm)
        simp [h0, this]
    | err =>
      have : ks ≠ [] := by
        rintro rfl
        cases hl
      simp [this]
    | panic =>
      have : ks ≠ [] := by
        rintro rfl
        cases hl
      simp [this]
  | proof k =>
    obtain ⟨h1, h2⟩ := h
    obtain ⟨ks0, hd0⟩ := hd
    cases k with
    | none =>
      exact ⟨h1, ks0, hd0, h2⟩
    | some k =>
      cases hm : m k with
      | none =>
        simp only [Option.bind_some, hm, Option.map_none] at h2
        refine ⟨h1, ks0, hd0, ?_⟩
        have hge : ¬ ks0.findIdx (· == k) < ks0.length := by
          intro h
          rw [List.findIdx_lt_length] at h
          obtain ⟨x, hx, he⟩ := h
          simp only [beq_iff_eq] at he
          have := (hd0.2 k).1 (he ▸ hx)
          rw [hm] at this
          cases this
        rw [h2]
        simp only [Comb.getProof, if_neg hge]
      | some t =>
        simp only [Option.bind_some, hm, Option.map_some] at h2
        obtain ⟨ks, hd, i, hi, x, hx, hr⟩ := h2
        refine ⟨h1, ks, hd, ?_⟩
        have hmem : k ∈ ks := List.mem_of_getElem? hi
        have hlt : ks.findIdx (· == k) < ks.length := List.findIdx_lt_length_of_exists ⟨k, hmem, by simp⟩
        have hget : ks[ks.findIdx (· == k)]? = some k := by
          rw [List.getElem?_eq_getElem hlt]
          have := List.findIdx_getElem (w := hlt)
          simp only [beq_iff_eq] at this
          rw [this]
        have hnd := hd.1.nodup bytesCompare_lawful
        have hii : i = ks.findIdx (· == k) := by
          obtain ⟨hi1, hi2⟩ := List.getElem?_eq_some_iff.1 hi
          obtain ⟨hj1, hj2⟩ := List.getElem?_eq_some_iff.1 hget
          exact (List.Nodup.getElem_inj_iff hnd).1 (hi2.trans hj2.symm)
        rw [hr]
        rw [hii]
        simp only [Comb.getProof, if_pos hlt, ← asked_static hx, hm]
        cases x <;> rfl

/-- **C146**: with sub-tries that nobody changes, hashes and proofs are those of the map at one moment. -/
theorem C146_static (H : Bytes → Bytes) (hv : P → Res Bytes) (todo : Nat → List (CCall P)) (c : RW (CMem P) (CCall P) (CAns P))
    (h : RWSteps (cbody H) cwrites (Moves fun t r => r = hv t) (rwInitial _ _ ⟨new P, hv⟩ todo) c) :
    ∃ m, Explains (cexact H hv) (fun _ => none) c.log m := by
  obtain ⟨⟨m, hm⟩, -⟩ := C146_linearizable H (fun t r => r = hv t) hv (fun _ => rfl) todo c h
  refine ⟨m, ?_⟩
  generalize c.log = log at hm
  have h0 : ∃ ks, Domain (fun _ => none : Bytes → Option P) ks := ⟨[], (inv_new (P := P)).sorted, (inv_new (P := P)).dom⟩
  induction hm with
  | nil => exact .nil _
  | snoc t o r hs h1 ih => exact .snoc t o r ih (static_step (exists_domain H hs h0) h1)

/-! ### Sub-tries that change -/

/-- Three states of two sub-tries: a writer changes the first, and then the second. -/
def stage (n : Nat) (t : Nat) : Res Bytes := .ok (toyLeaf (if t = 0 then (if n = 0 then 1 else 3) else (if n = 2 then 4 else 2)))

/-- The writer goes on. -/
def Goes (s s' : CMem Nat) : Prop := s'.comb = s.comb ∧ ∃ n, n < 2 ∧ s.hv = stage n ∧ s'.hv = stage (n + 1)

/-- A trie of two tries. -/
def two : Comb Nat := ⟨[[1], [2]], fun k => if k = [1] then some 0 else if k = [2] then some 1 else none⟩

/-- An execution: a goroutine hashes while another changes first the one and then the other sub-trie. -/
theorem mixed (H : Bytes → Bytes) (h0 h1 h2 : Nat → Res Bytes) (a d : Bytes) (ha : h0 0 = .ok a) (hd : h2 1 = .ok d)
    (env : CMem Nat → CMem Nat → Prop) (e1 : env ⟨two, h0⟩ ⟨two, h1⟩) (e2 : env ⟨two, h1⟩ ⟨two, h2⟩) (todo todo' : Nat → List (CCall Nat)) (ht : todo 0 = [.hash])
    (ht' : Conc.setAt todo 0 [] = todo') :
    RWSteps (cbody H) cwrites env (rwInitial _ _ ⟨two, h0⟩ todo) ⟨⟨two, h2⟩, none, fun _ => none, todo',
      [(0, .hash, .hash (.ok (merkleHashComplete H [a, d] 0 none).1))]⟩ := by
  refine .trans (.tail (.refl _) (.lock 0 (CCall.hash) [] ht rfl fun _ => rfl)) ?_
  rw [ht']
  refine .trans (.tail (.refl _) (.write 0 (CCall.hash) _ _)) ?_
  have hk : two.keys = [[1], [2]] := rfl
  have hv1 : two.vm [1] = some 0 := by decide
  have hv2 : two.vm [2] = some 1 := by decide
  simp only [id, hk, reduceCtorEq, if_false, hashLoop]
  refine .trans (.tail (.refl _) (.write 0 (CCall.hash) _ _)) ?_
  simp only [id, hv1]
  refine .trans (.tail (.refl _) (.write 0 (CCall.hash) _ _)) ?_
  simp only [id, ha]
  refine .trans (.tail (.refl _) (.other _ e1)) ?_
  refine .trans (.tail (.refl _) (.other _ e2)) ?_
  refine .trans (.tail (.refl _) (.write 0 (CCall.hash) _ _)) ?_
  simp only [id, hv2]
  refine .trans (.tail (.refl _) (.write 0 (CCall.hash) _ _)) ?_
  simp only [id, hd]
  exact .tail (.refl _) (.unlock 0 (CCall.hash) _)

/-- Such an execution meets the hypotheses of `C146_linearizable` from the second call on. -/
example : Domain two.vm [[1], [2]] := by
  refine ⟨List.Pairwise.cons (by decide) (List.Pairwise.cons (by simp) List.Pairwise.nil), fun k => ?_⟩
  simp only [two, List.mem_cons, List.not_mem_nil, or_false]
  by_cases h1 : k = [1]
  · simp [h1]
  · by_cases h2 : k = [2] <;> simp [h1, h2]

theorem two_root (a b : Bytes) : (merkleHashComplete toyH [a, b] 0 none).1 = toyH (a ++ b) := by
  rw [complete_spec toyH [a, b] _ _ 1 (by simp) ⟨by omega, by simp, by omega⟩]
  rfl

theorem two_hash (hv : Nat → Res Bytes) (a b : Bytes) (ha : hv 0 = .ok a) (hb : hv 1 = .ok b) :
    Comb.hash toyH hv two = .ok (toyH (a ++ b)) := by
  have hk : two.keys = [[1], [2]] := rfl
  have hv1 : two.vm [1] = some 0 := by decide
  have hv2 : two.vm [2] = some 1 := by decide
  simp only [Comb.hash, hk, hashes, hv1, hv2, ha, hb, two_root, reduceCtorEq, if_false]

/-- **C146 refuted** for sub-tries that change: a hash need not be that of any state there has been. -/
theorem C146_moving_refuted : ∃ (c : RW (CMem Nat) (CCall Nat) (CAns Nat)) (r : Bytes),
    RWSteps (cbody toyH) cwrites Goes (rwInitial _ _ ⟨two, stage 0⟩ (fun t => if t = 0 then [CCall.hash] else [])) c ∧
    c.log.map (·.2.2) = [.hash (.ok r)] ∧ ∀ n < 3, Comb.hash toyH (stage n) two ≠ .ok r := by
  refine ⟨_, _, mixed toyH (stage 0) (stage 1) (stage 2) (toyLeaf 1) (toyLeaf 4) rfl rfl Goes ⟨rfl, 0, by omega, rfl, rfl⟩
    ⟨rfl, 1, by omega, rfl, rfl⟩ _ _ rfl rfl, rfl, ?_⟩
  rw [two_root]
  intro n hn
  have h0 : Comb.hash toyH (stage 0) two = .ok (toyH (toyLeaf 1 ++ toyLeaf 2)) := two_hash _ _ _ rfl rfl
  have h1 : Comb.hash toyH (stage 1) two = .ok (toyH (toyLeaf 3 ++ toyLeaf 2)) := two_hash _ _ _ rfl rfl
  have h2 : Comb.hash toyH (stage 2) two = .ok (toyH (toyLeaf 3 ++ toyLeaf 4)) := two_hash _ _ _ rfl rfl
  have hn' : n = 0 ∨ n = 1 ∨ n = 2 := by omega
  rcases hn' with rfl | rfl | rfl
  · rw [h0]; decide +kernel
  · rw [h1]; decide +kernel
  · rw [h2]; decide +kernel

end Verif.Combined

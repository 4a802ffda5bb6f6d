import Verif.Trie.IteratorLemmas

/-!
# What the reversed iterator visits
-/

namespace Verif.Trie.Store
open Verif Verif.Merkle Verif.Trie

variable {V : Type} {E : Env V} {D : Disk}

/-- The value of a node, unless its child at position 0 exists. -/
def own (q : List Nib) (v : Option V) (c : Nib → Node V) : List (List Nib × Option V) :=
  if (c 0).isSome || !v.isSome then [] else [(q, v)]

/-- What the reversed iterator yields for a tree. -/
def rvisits : List Nib → Node V → List (List Nib × Option V)
  | _, .nil => []
  | q, .mk p v c => (nibbles.reverse.flatMap fun j => rvisits (q ++ p ++ [j]) (c j)) ++ own (q ++ p) v c

/-- The same below the children before position `k`. -/
def rkids (q : List Nib) (c : Nib → Node V) (k : Nat) : List (List Nib × Option V) :=
  (nibbles.take k).reverse.flatMap fun j => rvisits (q ++ [j]) (c j)

theorem rvisits_mk (q p : List Nib) (v : Option V) (c : Nib → Node V) :
    rvisits q (.mk p v c) = rkids (q ++ p) c 16 ++ own (q ++ p) v c := by
  rw [rvisits, rkids, List.take_of_length_le (Nat.le_of_eq nibbles_length)]

theorem rvisits_nil_of {c : Nib → Node V} {q : List Nib} {a : List Nib} (h : ∀ i ∈ a, (c i).isSome = false) :
    a.flatMap (fun j => rvisits (q ++ [j]) (c j)) = [] := by
  rw [List.flatMap_eq_nil_iff]
  intro i hi
  rw [(isSome_false _).1 (h i hi)]
  rfl

theorem rkids_some {q : List Nib} {c : Nib → Node V} {k : Nat} {j : Nib}
    (h : (nibbles.take k).reverse.find? (fun j => (c j).isSome) = some j) :
    rkids q c k = rvisits (q ++ [j]) (c j) ++ rkids q c j.val ∧ (c j).isSome = true := by
  obtain ⟨a, h1, h2, h3⟩ := take_find h
  refine ⟨?_, h3⟩
  rw [rkids, h1, List.reverse_append, List.reverse_cons, List.flatMap_append, List.flatMap_append,
    rvisits_nil_of (a := a.reverse) (by simpa using h2), rkids]
  simp

theorem rkids_none {q : List Nib} {c : Nib → Node V} {k : Nat}
    (h : (nibbles.take k).reverse.find? (fun j => (c j).isSome) = none) : rkids q c k = [] :=
  rvisits_nil_of fun i hi => by
    have := List.find?_eq_none.1 h i hi
    simpa using this

/-! ### The machine -/

/-- A bound for the rounds a tree takes. -/
def work : Node V → Nat
  | .nil => 0
  | .mk _ _ c => 19 + (nibbles.map fun j => work (c j)).sum

/-- The same for the children before position `k`. -/
def workTo (c : Nib → Node V) (k : Nat) : Nat := ((nibbles.take k).map fun j => work (c j)).sum

theorem work_mk (p : List Nib) (v : Option V) (c : Nib → Node V) : work (.mk p v c) = 19 + workTo c 16 := by
  rw [work, workTo, List.take_of_length_le (Nat.le_of_eq nibbles_length)]

theorem workTo_some {c : Nib → Node V} {k : Nat} {j : Nib}
    (h : (nibbles.take k).reverse.find? (fun j => (c j).isSome) = some j) :
    workTo c j.val + work (c j) ≤ workTo c k ∧ j.val < k := by
  obtain ⟨a, h1, -, -⟩ := take_find h
  have hl := congrArg List.length h1
  rw [workTo, workTo, h1]
  have := j.isLt
  simp only [List.length_take, List.length_append, List.length_cons, nibbles_length] at hl
  refine ⟨?_, by omega⟩
  simp only [List.map_append, List.map_cons, List.sum_append, List.sum_cons]
  omega

/-- What is left of a node whose position is `pos - 1`. -/
def left (q : List Nib) (pos : Nat) (v : Option V) (c : Nib → Node V) : List (List Nib × Option V) :=
  if pos ≤ 1 then [] else rkids q c (pos - 1) ++ own q v c

/-- A stack, what is left to yield, and a bound for the rounds. -/
inductive RWalk (E : Env V) (D : Disk) : List (RTr V) → List (List Nib × Option V) → Nat → Prop
  | nil : RWalk E D [] [] 0
  | cons {t : RTr V} {rest r m p v c} : RWalk E D rest r m → Rep E D t.node (.mk p v c) → WFRoot (.mk p v c) →
      RWalk E D (t :: rest) (left (rpath rest ++ p) t.pos v c ++ r) (t.pos + 1 + workTo c (t.pos - 1) + m)

/-- What `Current` looks at. -/
def rentry : List (RTr V) → List Nib × Option V
  | [] => ([], none)
  | t :: rest => (rpath rest ++ t.node.pre, t.node.value)

theorem backward_spec (hE : E.Lawful) (g : UInt64) {st : List (RTr V)} {r : List (List Nib × Option V)} {m : Nat}
    (h : RWalk E D st r m) :
    match backward E D g st with
    | .ended => r = []
    | .go st' => ∃ m' < m, RWalk E D st' r m'
    | .found st' => ∃ r', ∃ m' < m, r = rentry st' :: r' ∧ RWalk E D st' r' m' := by
  cases h with
  | nil => rfl
  | @cons t rest r m p v c hr hrep hw =>
    obtain ⟨i, d, he, hf⟩ := visit_spec hE g hrep hw
    rw [backward]
    by_cases h0 : t.pos = 0
    · rw [if_pos h0]
      refine ⟨m, by omega, ?_⟩
      rw [left, if_pos (by omega), List.nil_append]
      exact hr
    rw [if_neg h0, he, lastKid_eq hf.kids]
    cases hk : (nibbles.take (t.pos - 1)).reverse.find? fun j => (c j).isSome with
    | some j =>
      obtain ⟨h1, h2⟩ := rkids_some (q := rpath rest ++ p) hk
      obtain ⟨h3, h4⟩ := workTo_some hk
      have hwj : WFRoot (c j) := WF.root (WFRoot.child hw j) h2
      have hkj := hf.kids j
      cases hcj : c j with
      | nil => rw [hcj] at h2; simp [Node.isSome] at h2
      | mk p' v' c' =>
        rw [hcj] at hwj hkj
        have hw1 := RWalk.cons (t := ⟨j.val + 1, .mk i d⟩) hr hf.rep hw
        have hpath : rpath (⟨j.val + 1, .mk i d⟩ :: rest) = rpath rest ++ p ++ [j] := by
          simp [rpath, BNode.pre, hf.ok.pre]
        have hw2 := RWalk.cons (t := ⟨17, d j⟩) hw1 hkj hwj
        rw [hpath] at hw2
        refine ⟨17 + 1 + workTo c' (17 - 1) + (j.val + 1 + 1 + workTo c (j.val + 1 - 1) + m), ?_, ?_⟩
        rotate_left
        · have hl : left (rpath rest ++ p ++ [j] ++ p') 17 v' c' ++ (left (rpath rest ++ p) (j.val + 1) v c ++ r) =
              left (rpath rest ++ p) t.pos v c ++ r := by
            rw [← List.append_assoc]
            congr 1
            have hlt : ¬ t.pos ≤ 1 := by omega
            rw [left, left, left, if_neg (by omega), if_neg hlt, h1, hcj, rvisits_mk]
            by_cases hj0 : j.val = 0
            · have hj0' : j = 0 := Fin.ext hj0
              rw [if_pos (by omega), hj0]
              have hn : own (rpath rest ++ p) v c = [] := by
                rw [own, ← hj0', h2]; rfl
              rw [hn]
              simp [rkids]
            · rw [if_neg (by omega)]
              simp
          rw [← hl]
          exact hw2
        · have := work_mk p' v' c'
          rw [hcj] at h3
          simp only [Nat.add_sub_cancel, show (17 - 1 : Nat) = 16 from rfl]
          omega
    | none =>
      have h1 := rkids_none (q := rpath rest ++ p) hk
      have hw0 := RWalk.cons (t := ⟨0, .mk i d⟩) hr hf.rep hw
      have hz : ∀ q : List Nib, left q 0 v c = [] := fun q => by rw [left, if_pos (by omega)]
      rw [hz, List.nil_append] at hw0
      have hwz : workTo c (0 - 1) = 0 := rfl
      simp only [hwz] at hw0
      simp only
      by_cases hp1 : t.pos = 1
      · rw [if_pos hp1]
        refine ⟨0 + 1 + 0 + m, ?_, ?_⟩
        rotate_left
        · rw [left, if_pos (by omega), List.nil_append]
          exact hw0
        · omega
      · have hp1' : ¬ t.pos ≤ 1 := by omega
        rw [if_neg hp1, left, if_neg hp1', h1, List.nil_append, own]
        have h0' : (c 0).isSome = false := by
          have := List.find?_eq_none.1 hk 0 (by
            have h16 : 0 < nibbles.length := by rw [nibbles_length]; omega
            have hn := nibbles_get 0 h16
            rw [List.mem_reverse, List.mem_take_iff_getElem]
            exact ⟨0, by rw [nibbles_length]; omega, hn⟩)
          simpa using this
        have hval : (BNode.mk i d).value = v := hf.value
        rw [hval, h0']
        cases v with
        | some x =>
          simp only [Option.isSome_some, if_true]
          refine ⟨r, _, ?_, ?_, hw0⟩
          · omega
          · simp [rentry, BNode.pre, hf.ok.pre, hval]
        | none =>
          simp only [Option.isSome_none, Bool.false_eq_true, if_false]
          refine ⟨m, by omega, ?_⟩
          simpa using hr

theorem rnextF_spec (hE : E.Lawful) (g : UInt64) (root : BNode V) : ∀ (f : Nat) {st : List (RTr V)}
    {r : List (List Nib × Option V)} {m : Nat}, RWalk E D st r m → m < f →
    (rnextF E D g root f (.at st) = some .ended ∧ r = []) ∨
    ∃ st' r', ∃ m' < m, rnextF E D g root f (.at st) = some (.at st') ∧ r = rentry st' :: r' ∧ RWalk E D st' r' m' := by
  intro f
  induction f with
  | zero => intro st r m _ hl; omega
  | succ f ih =>
    intro st r m hw hl
    have h := backward_spec hE g hw
    rw [rnextF]
    cases hb : backward E D g st with
    | ended =>
      rw [hb] at h
      exact Or.inl ⟨rfl, h⟩
    | found st' =>
      rw [hb] at h
      obtain ⟨r', m', h1, h2, h3⟩ := h
      exact Or.inr ⟨st', r', m', h1, rfl, h2, h3⟩
    | go st' =>
      rw [hb] at h
      obtain ⟨m', h1, h2⟩ := h
      simp only
      rcases ih h2 (by omega) with h | ⟨st2, r2, m2, e1, e2, e3, e4⟩
      · exact Or.inl h
      · exact Or.inr ⟨st2, r2, m2, by omega, e2, e3, e4⟩

theorem rcurrent_eq (t : RTr V) (rest : List (RTr V)) : rcurrent (.at (t :: rest)) = keyed (rentry (t :: rest)) := rfl

theorem rcollect_spec (hE : E.Lawful) (g : UInt64) (root : BNode V) : ∀ (f : Nat) {st : List (RTr V)}
    {r : List (List Nib × Option V)} {m : Nat}, RWalk E D st r m → m + 1 < f →
    rcollect E D g root f (.at st) = some (r.map keyed) := by
  intro f
  induction f with
  | zero => intro st r m _ hl; omega
  | succ f ih =>
    intro st r m hw hl
    rw [rcollect]
    rcases rnextF_spec hE g root f hw (by omega) with ⟨h1, h2⟩ | ⟨st', r', m', h1, h2, h3, h4⟩
    · rw [h1, h2]; rfl
    · rw [h2, h3]
      simp only
      rw [ih h4 (by omega)]
      cases st' with
      | nil => rfl
      | cons t rest => rfl

/-- The whole walk. -/
theorem riterate_spec (hE : E.Lawful) (g : UInt64) {b : BNode V} {a : Node V} (h : Rep E D b a) (hw : WFRoot a)
    (f : Nat) (hf : work a + 2 < f) : rcollect E D g b f .fresh = some ((rvisits [] a).map keyed) := by
  cases a with
  | nil => exact hw.elim
  | mk p v c =>
    have hwalk := RWalk.cons (t := ⟨17, b⟩) RWalk.nil h hw
    have hm := work_mk p v c
    have hl : left ([] ++ p) 17 v c = rvisits [] (.mk p v c) := by
      rw [left, if_neg (by omega), rvisits_mk]
    have hb : b.isSome = true := by rw [h.isSome]; rfl
    simp only [rpath, hl, List.append_nil] at hwalk
    match f, hf with
    | f + 2, hf =>
      rw [rcollect, rnextF, if_pos hb]
      rcases rnextF_spec hE g b f hwalk (by simp; omega) with ⟨h1, h2⟩ | ⟨st', r', m', h1, h2, h3, h4⟩
      · rw [h1, h2]; rfl
      · rw [h2, h3]
        simp only
        rw [rcollect_spec hE g b (f + 1) h4 (by simp at h1; omega)]
        cases st' with
        | nil => rfl
        | cons t rest => rfl

/-! ### Comparison with the forward order -/

theorem rvisits_sublist (q : List Nib) (n : Node V) :
    (rvisits q n).Sublist ((visits q n).filter fun e => e.2.isSome).reverse := by
  induction n generalizing q with
  | nil => simp [rvisits, visits]
  | mk p v c ih =>
    rw [rvisits, visits, ← List.filter_reverse, List.reverse_cons, List.filter_append]
    apply List.Sublist.append
    · rw [List.filter_reverse]
      generalize nibbles = l
      induction l with
      | nil => simp
      | cons j l ihl =>
        rw [List.reverse_cons, List.flatMap_append, List.flatMap_cons (x := j) (xs := l), List.filter_append, List.reverse_append]
        apply List.Sublist.append ihl
        simpa using ih j (q ++ p ++ [j])
    · rw [own]
      cases hv : v.isSome <;> cases (c 0).isSome <;> simp [hv]

/-- No stored value has another one below it whose path goes on with nibble 0. -/
theorem rvisits_eq (q : List Nib) (n : Node V) (hw : WF n)
    (h : ∀ s r, (lookup n s).isSome = true → (lookup n (s ++ 0 :: r)).isSome = false) :
    rvisits q n = ((visits q n).filter fun e => e.2.isSome).reverse := by
  induction n generalizing q with
  | nil => simp [rvisits, visits]
  | mk p v c ih =>
    have hc : ∀ j, rvisits (q ++ p ++ [j]) (c j) = ((visits (q ++ p ++ [j]) (c j)).filter fun e => e.2.isSome).reverse := by
      intro j
      apply ih j _ (hw.2 j)
      intro s r hs
      have h1 := lookup_mk_child p v c j s
      have h2 := lookup_mk_child p v c j (s ++ 0 :: r)
      rw [← h2]
      rw [← h1] at hs
      have := h _ r hs
      simpa using this
    have hown : own (q ++ p) v c = [(q ++ p, v)].filter fun e => e.2.isSome := by
      rw [own]
      cases v with
      | none => simp
      | some x =>
        by_cases h0 : (c 0).isSome = true
        · exfalso
          obtain ⟨r, hr⟩ := (hw.2 0).nonempty h0
          rw [← lookup_mk_child p (some x) c 0 r] at hr
          have h1 : (lookup (.mk p (some x) c) p).isSome = true := by rw [lookup_mk_self]; rfl
          rw [h p r h1] at hr
          simp at hr
        · simp [h0]
    rw [rvisits, visits, ← List.filter_reverse, List.reverse_cons, List.filter_append, hown]
    congr 1
    rw [List.filter_reverse]
    simp only [hc]
    generalize nibbles = l
    induction l with
    | nil => simp
    | cons j l ihl =>
      rw [List.reverse_cons, List.flatMap_append, List.flatMap_cons (x := j) (xs := l), List.filter_append, List.reverse_append, ihl]
      simp

end Verif.Trie.Store

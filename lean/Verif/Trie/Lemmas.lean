import Verif.Trie.Model

/-!
# Facts about the in-memory trie

`lookup` is the reading of a tree as a finite map: a key is stored iff it spells a path from the root to a node
with a value, *including* every node's own prefix. `reach n q` is the key on which the code actually operates when
it is called with `q`.
-/

namespace Verif.Trie

variable {V : Type}

/-- The map a tree denotes. -/
def lookup : Node V → List Nib → Option V
  | .nil, _ => none
  | .mk p v c, q =>
    if p <+: q then
      match q.drop p.length with
      | [] => v
      | i :: q' => lookup (c i) q'
    else none

/-- The key on which `get`, `insert` and `delete` operate when they are called with `q`. It is `q` itself unless `q`
is exhausted on entry of a node with a prefix of its own. -/
def reach : Node V → List Nib → List Nib
  | .nil, q => q
  | .mk p v c, q =>
    if q = [] then p
    else if isEmpty p v c then q
    else
      match p.drop (matchPrefix p q), q.drop (matchPrefix p q) with
      | [], i :: q' => if (c i).isSome then p ++ i :: reach (c i) q' else q
      | _, _ => q

/-- Every node has a value or at least two children, as `mergeTheLastChild` keeps it. -/
def WF : Node V → Prop
  | .nil => True
  | .mk _ v c => (v.isSome ∨ ∃ i j, i ≠ j ∧ (c i).isSome ∧ (c j).isSome) ∧ ∀ i, WF (c i)

/-- A root is well-formed or it is the empty node. -/
def WFRoot : Node V → Prop
  | .nil => False
  | .mk p v c => isEmpty p v c = true ∨ WF (.mk p v c)

theorem mem_nibbles (i : Nib) : i ∈ nibbles := List.mem_finRange i

theorem hasChildren_iff (c : Nib → Node V) : hasChildren c = true ↔ ∃ i, (c i).isSome = true := by
  simp [hasChildren, mem_nibbles]

theorem hasChildren_false (c : Nib → Node V) : hasChildren c = false ↔ ∀ i, c i = .nil := by
  simp only [hasChildren, List.any_eq_false]
  constructor
  · intro h i
    have := h i (mem_nibbles i)
    cases hc : c i <;> simp [hc, Node.isSome] at this ⊢
  · intro h i _
    simp [h i, Node.isSome]

theorem isSome_false (n : Node V) : n.isSome = false ↔ n = .nil := by
  cases n <;> simp [Node.isSome]

theorem isEmpty_iff (p : List Nib) (v : Option V) (c : Nib → Node V) :
    isEmpty p v c = true ↔ p = [] ∧ v = none ∧ ∀ i, c i = .nil := by
  simp [isEmpty, hasChildren_false]
  tauto

theorem matchPrefix_le_left {α : Type} [DecidableEq α] (s t : List α) : matchPrefix s t ≤ s.length := by
  induction s generalizing t with
  | nil => simp [matchPrefix]
  | cons a s ih =>
    cases t with
    | nil => simp [matchPrefix]
    | cons b t =>
      simp only [matchPrefix]
      split
      · simpa using ih t
      · simp

theorem matchPrefix_take {α : Type} [DecidableEq α] (s t : List α) :
    s.take (matchPrefix s t) = t.take (matchPrefix s t) := by
  induction s generalizing t with
  | nil => simp [matchPrefix]
  | cons a s ih =>
    cases t with
    | nil => simp [matchPrefix]
    | cons b t =>
      simp only [matchPrefix]
      split
      · rename_i h; subst h; simp [ih t]
      · simp

theorem matchPrefix_drop {α : Type} [DecidableEq α] (s t : List α) {a b : α} {s' t' : List α}
    (hs : s.drop (matchPrefix s t) = a :: s') (ht : t.drop (matchPrefix s t) = b :: t') : a ≠ b := by
  induction s generalizing t with
  | nil => simp at hs
  | cons x s ih =>
    cases t with
    | nil => simp at ht
    | cons y t =>
      simp only [matchPrefix] at hs ht
      split at hs
      · rename_i h
        rw [if_pos h] at ht
        exact ih t (by simpa using hs) (by simpa using ht)
      · rename_i h
        rw [if_neg h] at ht
        simp at hs ht
        rw [← hs.1, ← ht.1]; exact h

/-- The shape of the first string, relative to the second. -/
theorem matchPrefix_split {α : Type} [DecidableEq α] (s t : List α) :
    s = t.take (matchPrefix s t) ++ s.drop (matchPrefix s t) := by
  rw [← matchPrefix_take]; simp

theorem matchPrefix_full {α : Type} [DecidableEq α] {s t : List α} (h : s.drop (matchPrefix s t) = []) :
    t = s ++ t.drop (matchPrefix s t) ∧ matchPrefix s t = s.length := by
  have h1 : matchPrefix s t = s.length := by
    have := matchPrefix_le_left s t
    have := List.drop_eq_nil_iff.1 h
    omega
  refine ⟨?_, h1⟩
  have h2 := matchPrefix_take s t
  rw [h1] at h2 ⊢
  simp at h2
  conv_lhs => rw [← List.take_append_drop s.length t, ← h2]

theorem matchPrefix_append {α : Type} [DecidableEq α] (s t : List α) : matchPrefix s (s ++ t) = s.length := by
  induction s with
  | nil => simp [matchPrefix]
  | cons a s ih => simp [matchPrefix, ih]

/-! ### lookup -/

theorem lookup_mk (p : List Nib) (v : Option V) (c : Nib → Node V) (q : List Nib) :
    lookup (.mk p v c) (p ++ q) = match q with | [] => v | i :: q' => lookup (c i) q' := by
  simp [lookup]

@[simp] theorem lookup_mk_self (p : List Nib) (v : Option V) (c : Nib → Node V) :
    lookup (.mk p v c) p = v := by
  simpa using lookup_mk p v c []

@[simp] theorem lookup_mk_child (p : List Nib) (v : Option V) (c : Nib → Node V) (i : Nib) (q : List Nib) :
    lookup (.mk p v c) (p ++ i :: q) = lookup (c i) q := by
  simpa using lookup_mk p v c (i :: q)

theorem lookup_not_prefix {p : List Nib} (v : Option V) (c : Nib → Node V) {q : List Nib} (h : ¬ p <+: q) :
    lookup (.mk p v c) q = none := by
  simp [lookup, h]

@[simp] theorem lookup_nil (q : List Nib) : lookup (.nil : Node V) q = none := by simp [lookup]

/-- Case analysis of a query against a node. -/
theorem query_cases (p q : List Nib) : (¬ p <+: q) ∨ q = p ∨ ∃ i q', q = p ++ i :: q' := by
  by_cases h : p <+: q
  · obtain ⟨r, rfl⟩ := h
    cases r with
    | nil => right; left; simp
    | cons i q' => right; right; exact ⟨i, q', rfl⟩
  · exact Or.inl h

theorem lookup_empty {p : List Nib} {v : Option V} {c : Nib → Node V} (h : isEmpty p v c = true) (q : List Nib) :
    lookup (.mk p v c) q = none := by
  obtain ⟨rfl, rfl, hc⟩ := (isEmpty_iff _ _ _).1 h
  rcases query_cases [] q with h | rfl | ⟨i, q', rfl⟩
  · simp [lookup, h]
  · simp
  · rw [lookup_mk_child, hc]; simp

/-- `get` returns what the tree stores at `reach`. -/
theorem get_eq (n : Node V) (q : List Nib) : get n q = lookup n (reach n q) := by
  induction n generalizing q with
  | nil => simp [get]
  | mk p v c ih =>
    rw [get, reach]
    by_cases hq : q = []
    · simp [hq]
    · simp only [hq, if_false]
      by_cases he : isEmpty p v c = true
      · simp [he, lookup_empty he]
      · simp only [he, Bool.false_eq_true, if_false]
        cases hp : p.drop (matchPrefix p q) with
        | nil =>
          obtain ⟨h1, h2⟩ := matchPrefix_full hp
          cases hd : q.drop (matchPrefix p q) with
          | nil =>
            rw [hd] at h1
            simp at h1
            simp [h1]
          | cons i q' =>
            cases hc : c i with
            | nil =>
              rw [hd] at h1
              simp only [hc, Node.isSome, Bool.false_eq_true, if_false, if_true]
              rw [h1]
              simp [hc, get]
            | mk p2 v2 c2 =>
              have hs : (c i).isSome = true := by rw [hc]; rfl
              simp only [hs, if_true]
              rw [ih i q']
              simp
        | cons a p' =>
          have hnp : ¬ p <+: q := by
            rintro ⟨r, rfl⟩
            rw [matchPrefix_append] at hp
            simp at hp
          cases hd : q.drop (matchPrefix p q) <;> simp [lookup_not_prefix v c hnp]

/-- The key operated on extends the key given. -/
theorem prefix_reach (n : Node V) (q : List Nib) : q <+: reach n q := by
  induction n generalizing q with
  | nil => simp [reach]
  | mk p v c ih =>
    rw [reach]
    by_cases hq : q = []
    · simp [hq]
    · simp only [hq, if_false]
      split
      · simp
      · split
        · rename_i i q' hp hd
          split
          · obtain ⟨h1, -⟩ := matchPrefix_full hp
            rw [hd] at h1
            rw [h1]
            obtain ⟨r, hr⟩ := ih i q'
            exact ⟨r, by rw [← hr]; simp⟩
          · simp
        · simp

/-- A well-formed node stores something. -/
theorem WF.nonempty {n : Node V} (h : WF n) (hs : n.isSome = true) : ∃ q, (lookup n q).isSome = true := by
  induction n with
  | nil => simp [Node.isSome] at hs
  | mk p v c ih =>
    obtain ⟨h1, h2⟩ := h
    rcases h1 with hv | ⟨i, j, _, hi, _⟩
    · exact ⟨p, by simpa using hv⟩
    · obtain ⟨q, hq⟩ := ih i (h2 i) hi
      exact ⟨p ++ i :: q, by simpa using hq⟩

theorem not_empty_of_WF {p : List Nib} {v : Option V} {c : Nib → Node V} (h : WF (.mk p v c)) :
    isEmpty p v c = false := by
  by_contra hc
  have he : isEmpty p v c = true := by simpa using hc
  obtain ⟨q, hq⟩ := h.nonempty rfl
  rw [lookup_empty he] at hq
  simp at hq

/-- `reach` is the given key if that key is stored, or if no stored key extends it. -/
theorem reach_eq {n : Node V} (hwf : WF n) {q : List Nib}
    (h : (lookup n q).isSome = true ∨ ∀ k, (lookup n k).isSome = true → q <+: k → k = q) : reach n q = q := by
  induction n generalizing q with
  | nil => simp [reach]
  | mk p v c ih =>
    rw [reach]
    by_cases hq : q = []
    · subst hq
      simp only [if_true]
      rcases h with h | h
      · by_contra hp
        rw [lookup_not_prefix v c (by simpa using hp)] at h
        simp at h
      · obtain ⟨k, hk⟩ := hwf.nonempty rfl
        have := h k hk (by simp)
        subst this
        by_contra hp
        rw [lookup_not_prefix v c (by simpa using hp)] at hk
        simp at hk
    · simp only [hq, if_false, not_empty_of_WF hwf]
      cases hp : p.drop (matchPrefix p q) with
      | cons a p' => simp
      | nil =>
        cases hd : q.drop (matchPrefix p q) with
        | nil => simp
        | cons i q' =>
          obtain ⟨h1, -⟩ := matchPrefix_full hp
          rw [hd] at h1
          cases hs : (c i).isSome with
          | false => simp [hs]
          | true =>
            simp only [hs, if_true]
            rw [ih i (hwf.2 i) (q := q'), ← h1]
            · rfl
            · subst h1
              rcases h with h | h
              · left; simpa using h
              · right
                intro k hk hpk
                have := h (p ++ i :: k) (by simpa using hk) (by simpa using hpk)
                simpa using this

/-! ### insert -/

theorem lookup_leaf (p : List Nib) (x : V) (k : List Nib) : lookup (leaf p x) k = if k = p then some x else none := by
  rw [leaf]
  rcases query_cases p k with h | rfl | ⟨i, q', rfl⟩
  · rw [lookup_not_prefix _ _ h, if_neg]
    rintro rfl; exact h (List.prefix_refl _)
  · simp
  · rw [lookup_mk_child]
    simp [noChild]

theorem lookup_setValue (p : List Nib) (v : Option V) (c : Nib → Node V) (w : Option V) (k : List Nib) :
    lookup (.mk p w c) k = if k = p then w else lookup (.mk p v c) k := by
  rcases query_cases p k with h | rfl | ⟨i, q', rfl⟩
  · rw [lookup_not_prefix _ _ h, lookup_not_prefix _ _ h, if_neg]
    rintro rfl; exact h (List.prefix_refl _)
  · simp
  · simp

theorem lookup_setChild (p : List Nib) (v : Option V) (c : Nib → Node V) (i : Nib) (n : Node V) (k : List Nib) :
    lookup (.mk p v (setChild c i n)) k =
      if p ++ [i] <+: k then lookup n (k.drop (p.length + 1)) else lookup (.mk p v c) k := by
  rcases query_cases p k with h | rfl | ⟨j, q', rfl⟩
  · rw [lookup_not_prefix _ _ h, lookup_not_prefix _ _ h, if_neg]
    intro hp
    exact h ((List.prefix_append p [i]).trans hp)
  · rw [if_neg]
    · simp
    · intro hp
      have := hp.length_le
      simp at this
      try omega
  · by_cases hj : j = i
    · subst hj
      rw [if_pos ⟨q', by simp⟩]
      simp [setChild, ← List.drop_drop]
    · rw [if_neg]
      · simp [setChild, hj]
      · rintro ⟨r, hr⟩
        simp at hr
        exact hj hr.1.symm

/-- Splitting a node's prefix does not change the map. -/
theorem lookup_split (s : List Nib) (j : Nib) (p' : List Nib) (v : Option V) (c : Nib → Node V) (k : List Nib) :
    lookup (.mk s none (setChild noChild j (.mk p' v c))) k = lookup (.mk (s ++ j :: p') v c) k := by
  rcases query_cases s k with h | rfl | ⟨i, q', rfl⟩
  · rw [lookup_not_prefix _ _ h, lookup_not_prefix]
    intro hp
    exact h ((List.prefix_append _ _).trans hp)
  · rw [lookup_mk_self, lookup_not_prefix]
    intro hp
    have := hp.length_le
    simp at this
    try omega
  · rw [lookup_mk_child]
    by_cases hi : i = j
    · subst hi
      simp only [setChild, if_true]
      rcases query_cases p' q' with h | rfl | ⟨a, r, rfl⟩
      · rw [lookup_not_prefix _ _ h, lookup_not_prefix]
        rintro ⟨r, hr⟩
        exact h ⟨r, by simpa using hr⟩
      · simp
      · rw [lookup_mk_child]
        have : s ++ i :: (p' ++ a :: r) = (s ++ i :: p') ++ a :: r := by simp
        rw [this, lookup_mk_child]
    · simp only [setChild, hi, if_false, noChild]
      rw [lookup_not_prefix]
      · simp
      · rintro ⟨r, hr⟩
        simp at hr
        exact hi hr.1.symm

/-- `insert` stores the value at `reach` and nowhere else. -/
theorem lookup_insert (n : Node V) (hs : n.isSome = true) (q : List Nib) (x : V) (k : List Nib) :
    lookup (insert n q x).node k = if k = reach n q then some x else lookup n k := by
  induction n generalizing q k with
  | nil => simp [Node.isSome] at hs
  | mk p v c ih =>
    rw [insert, reach]
    by_cases hq : q = []
    · simp only [hq, if_true]
      exact lookup_setValue p v c _ k
    · simp only [hq, if_false]
      by_cases he : isEmpty p v c = true
      · simp only [he, if_true]
        rw [lookup_empty he]
        obtain ⟨rfl, rfl, hc⟩ := (isEmpty_iff _ _ _).1 he
        have : c = noChild := funext hc
        rw [this]
        exact lookup_leaf q x k
      · simp only [he, Bool.false_eq_true, if_false]
        cases hp : p.drop (matchPrefix p q) with
        | nil =>
          obtain ⟨h1, -⟩ := matchPrefix_full hp
          cases hd : q.drop (matchPrefix p q) with
          | nil =>
            rw [hd] at h1
            simp only [List.append_nil] at h1
            subst h1
            exact lookup_setValue q v c _ k
          | cons i q' =>
            rw [hd] at h1
            cases hc : (c i).isSome with
            | false =>
              simp only [hc, Bool.false_eq_true, if_false, if_true]
              rw [lookup_setChild, h1]
              have hn := (isSome_false _).1 hc
              rcases query_cases (p ++ [i]) k with h | rfl | ⟨a, r, rfl⟩
              · rw [if_neg h, if_neg]
                rintro rfl
                exact h ⟨q', by simp⟩
              · rw [if_pos (List.prefix_refl _)]
                simp [lookup_leaf, hn]
              · rw [if_pos (List.prefix_append _ _)]
                have e1 : (p ++ [i] ++ a :: r).drop (p.length + 1) = a :: r := by
                  rw [List.drop_append_of_le_length (by simp)]; simp
                rw [e1, lookup_leaf]
                have e2 : p ++ [i] ++ a :: r = p ++ i :: (a :: r) := by simp
                rw [e2, lookup_mk_child, hn]
                simp
            | true =>
              simp only [hc, Bool.true_eq_false, if_false, if_true]
              rw [lookup_setChild]
              by_cases hk : p ++ [i] <+: k
              · obtain ⟨r, rfl⟩ := hk
                rw [if_pos (List.prefix_append _ _)]
                have e1 : (p ++ [i] ++ r).drop (p.length + 1) = r := by
                  rw [List.drop_append_of_le_length (by simp)]; simp
                rw [e1, ih i hc]
                have e2 : p ++ [i] ++ r = p ++ i :: r := by simp
                rw [e2, lookup_mk_child]
                simp
              · rw [if_neg hk, if_neg]
                rintro rfl
                exact hk ⟨reach (c i) q', by simp⟩
        | cons j p' =>
          have hps := matchPrefix_split p q
          rw [hp] at hps
          cases hd : q.drop (matchPrefix p q) with
          | nil =>
            have hqt : q.take (matchPrefix p q) = q := by
              rw [List.take_of_length_le]; exact List.drop_eq_nil_iff.1 hd
            simp only [hqt]
            rw [hqt] at hps
            rw [lookup_setValue q none, lookup_split, ← hps]
          | cons i q' =>
            have hij := matchPrefix_drop p q hp hd
            have hqs : q = q.take (matchPrefix p q) ++ i :: q' := by rw [← hd]; simp
            simp only
            generalize hs : q.take (matchPrefix p q) = s at *
            rw [lookup_setChild, lookup_split, ← hps, hqs]
            rcases query_cases (s ++ [i]) k with h | rfl | ⟨a, r, rfl⟩
            · rw [if_neg h, if_neg]
              rintro rfl
              exact h ⟨q', by simp⟩
            · rw [if_pos (List.prefix_refl _)]
              have hn : ¬ p <+: s ++ [i] := by
                rw [hps]
                rintro ⟨r, hr⟩
                simp at hr
                exact hij hr.1
              rw [lookup_not_prefix _ _ hn]
              simp [lookup_leaf]
            · rw [if_pos (List.prefix_append _ _)]
              have e1 : (s ++ [i] ++ a :: r).drop (s.length + 1) = a :: r := by
                rw [List.drop_append_of_le_length (by simp)]; simp
              have hn : ¬ p <+: s ++ [i] ++ a :: r := by
                rw [hps]
                rintro ⟨r, hr⟩
                simp at hr
                exact hij hr.1
              rw [e1, lookup_leaf, lookup_not_prefix _ _ hn]
              simp

theorem insert_changed (n : Node V) (hs : n.isSome = true) (q : List Nib) (x : V) :
    (insert n q x).changed = true := by
  induction n generalizing q with
  | nil => simp [Node.isSome] at hs
  | mk p v c ih =>
    rw [insert]
    split
    · rfl
    · split
      · rfl
      · dsimp only
        split
        · split
          · rfl
          · split
            · rfl
            · rename_i i q' _ hc
              exact ih i (by simpa using hc) q'
        · split <;> rfl

theorem insert_delta (n : Node V) (hs : n.isSome = true) (q : List Nib) (x : V) :
    (insert n q x).delta = putDelta (lookup n (reach n q)) := by
  induction n generalizing q with
  | nil => simp [Node.isSome] at hs
  | mk p v c ih =>
    rw [insert, reach]
    by_cases hq : q = []
    · simp [hq]
    · simp only [hq, if_false]
      by_cases he : isEmpty p v c = true
      · simp only [he, if_true]
        rw [lookup_empty he]
        obtain ⟨rfl, rfl, hc⟩ := (isEmpty_iff _ _ _).1 he
        rfl
      · simp only [he, Bool.false_eq_true, if_false]
        cases hp : p.drop (matchPrefix p q) with
        | nil =>
          obtain ⟨h1, -⟩ := matchPrefix_full hp
          cases hd : q.drop (matchPrefix p q) with
          | nil =>
            rw [hd] at h1
            simp only [List.append_nil] at h1
            subst h1
            simp
          | cons i q' =>
            rw [hd] at h1
            cases hc : (c i).isSome with
            | false =>
              have hn := (isSome_false _).1 hc
              simp only [hc, Bool.false_eq_true, if_false, if_true]
              rw [h1, lookup_mk_child, hn]
              rfl
            | true =>
              simp only [hc, Bool.true_eq_false, if_false, if_true]
              rw [ih i hc, lookup_mk_child]
        | cons j p' =>
          have hnp : ¬ p <+: q := by
            rintro ⟨r, rfl⟩
            rw [matchPrefix_append] at hp
            simp at hp
          cases hd : q.drop (matchPrefix p q) <;> simp [lookup_not_prefix v c hnp]

theorem insert_isSome (n : Node V) (hs : n.isSome = true) (q : List Nib) (x : V) :
    (insert n q x).node.isSome = true := by
  cases n with
  | nil => simp [Node.isSome] at hs
  | mk p v c =>
    rw [insert]
    split
    · rfl
    · split
      · rfl
      · dsimp only
        split
        · split
          · rfl
          · split <;> rfl
        · split <;> rfl

theorem WF_leaf (p : List Nib) (x : V) : WF (leaf p x) := ⟨Or.inl rfl, fun _ => trivial⟩

theorem WF_noChild (i : Nib) : WF (noChild (V := V) i) := trivial

theorem WF_nil : WF (Node.nil : Node V) := trivial

theorem WF_setChild {c : Nib → Node V} (h : ∀ i, WF (c i)) (i : Nib) {n : Node V} (hn : WF n) :
    ∀ j, WF (setChild c i n j) := by
  intro j
  by_cases hj : j = i <;> simp [setChild, hj, hn, h]

theorem insert_WF (n : Node V) (hwf : WF n) (q : List Nib) (x : V) : WF (insert n q x).node := by
  induction n generalizing q with
  | nil => simp [insert, WF]
  | mk p v c ih =>
    obtain ⟨h1, h2⟩ := hwf
    rw [insert]
    split
    · exact ⟨Or.inl rfl, h2⟩
    · split
      · exact ⟨Or.inl rfl, h2⟩
      · dsimp only
        split
        · split
          · exact ⟨Or.inl rfl, h2⟩
          · rename_i i q' _
            split
            · refine ⟨?_, WF_setChild h2 i (WF_leaf _ _)⟩
              rcases h1 with h1 | ⟨a, b, hab, ha, hb⟩
              · exact Or.inl h1
              · right
                refine ⟨a, b, hab, ?_, ?_⟩ <;> simp only [setChild] <;> split <;> first | rfl | assumption
            · rename_i hc
              refine ⟨?_, WF_setChild h2 i (ih i (h2 i) q')⟩
              rcases h1 with h1 | ⟨a, b, hab, ha, hb⟩
              · exact Or.inl h1
              · right
                have := insert_isSome (c i) (by simpa using hc) q' x
                refine ⟨a, b, hab, ?_, ?_⟩ <;> simp only [setChild] <;> split <;> simp [ha, hb, this]
        · rename_i j p' hp
          split
          · exact ⟨Or.inl rfl, WF_setChild WF_noChild j (n := .mk p' v c) ⟨h1, h2⟩⟩
          · rename_i i q' hd
            have hij := matchPrefix_drop p q hp hd
            refine ⟨Or.inr ⟨j, i, hij, ?_, ?_⟩, WF_setChild (WF_setChild WF_noChild j (n := .mk p' v c) ⟨h1, h2⟩) i (WF_leaf _ _)⟩
            · simp [setChild, hij, Node.isSome]
            · simp [setChild, leaf, Node.isSome]

/-! ### merge -/

theorem childIds_eq_singleton {c : Nib → Node V} {i : Nib} (h : childIds c = [i]) :
    (c i).isSome = true ∧ ∀ j, j ≠ i → c j = .nil := by
  have hm : ∀ j, j ∈ childIds c ↔ (c j).isSome = true := by
    intro j; simp [childIds, mem_nibbles]
  constructor
  · rw [← hm, h]; simp
  · intro j hj
    rw [← isSome_false]
    by_contra hc
    have : j ∈ childIds c := (hm j).2 (by simpa using hc)
    rw [h] at this
    simp at this
    exact hj this

/-- What a merge yields, when it happens. -/
theorem merge_cases (p : List Nib) (v : Option V) (c : Nib → Node V) :
    (merge (.mk p v c) = (.mk p v c, false) ∧ (v = none → ∀ i, childIds c ≠ [i])) ∨
    ∃ i p2 v2 c2, v = none ∧ childIds c = [i] ∧ c i = .mk p2 v2 c2 ∧
      merge (.mk p v c) = (.mk (p ++ i :: p2) v2 c2, true) := by
  cases v with
  | some v => left; exact ⟨rfl, by simp⟩
  | none =>
    rw [merge]
    by_cases h : ∃ i, childIds c = [i]
    · obtain ⟨i, hi⟩ := h
      obtain ⟨h1, h2⟩ := childIds_eq_singleton hi
      cases hc : c i with
      | nil => simp [hc, Node.isSome] at h1
      | mk p2 v2 c2 =>
        right
        refine ⟨i, p2, v2, c2, rfl, hi, hc, ?_⟩
        rw [hi]
        simp only [hc]
        congr 2
        funext k
        cases hk : c2 k with
        | mk => simp [Node.isSome]
        | nil =>
          simp only [Node.isSome, Bool.false_eq_true, if_false, setChild]
          split
          · rfl
          · rename_i hne; exact h2 k hne
    · left
      have h' : ∀ i, childIds c ≠ [i] := fun i hi => h ⟨i, hi⟩
      refine ⟨?_, fun _ => h'⟩
      split
      · rename_i i hi; exact absurd hi (h' i)
      · rfl

theorem lookup_merge (n : Node V) (k : List Nib) : lookup (merge n).1 k = lookup n k := by
  cases n with
  | nil => simp [merge]
  | mk p v c =>
    rcases merge_cases p v c with ⟨h, -⟩ | ⟨i, p2, v2, c2, rfl, hi, hc, h⟩
    · rw [h]
    · rw [h]
      obtain ⟨-, h2⟩ := childIds_eq_singleton hi
      have : c = setChild noChild i (.mk p2 v2 c2) := by
        funext j
        by_cases hj : j = i
        · subst hj; simp [setChild, hc]
        · simp [setChild, hj, noChild, h2 j hj]
      rw [this, lookup_split]

theorem merge_isSome (n : Node V) : (merge n).1.isSome = n.isSome := by
  cases n with
  | nil => simp [merge]
  | mk p v c =>
    rcases merge_cases p v c with ⟨h, -⟩ | ⟨i, p2, v2, c2, rfl, hi, hc, h⟩ <;> rw [h] <;> rfl

theorem childIds_two {c : Nib → Node V} (hc : hasChildren c = true) (h : ∀ i, childIds c ≠ [i]) :
    ∃ i j, i ≠ j ∧ (c i).isSome = true ∧ (c j).isSome = true := by
  have hm : ∀ j, j ∈ childIds c ↔ (c j).isSome = true := by
    intro j; simp [childIds, mem_nibbles]
  have hnd : (childIds c).Nodup := (List.nodup_finRange 16).filter _
  obtain ⟨i, hi⟩ := (hasChildren_iff c).1 hc
  have hi' := (hm i).2 hi
  match hl : childIds c with
  | [] => rw [hl] at hi'; simp at hi'
  | [a] => exact absurd hl (h a)
  | a :: b :: t =>
    rw [hl] at hnd
    refine ⟨a, b, ?_, (hm a).1 (by rw [hl]; simp), (hm b).1 (by rw [hl]; simp)⟩
    intro e
    subst e
    simp at hnd

/-- After a merge the node is well-formed again. -/
theorem merge_WF {p : List Nib} {v : Option V} {c : Nib → Node V} (h : ∀ i, WF (c i))
    (hne : ¬ (hasChildren c = false ∧ v.isNone = true)) : WF (merge (.mk p v c)).1 := by
  rcases merge_cases p v c with ⟨hm, hn⟩ | ⟨i, p2, v2, c2, rfl, hi, hc, hm⟩
  · rw [hm]
    refine ⟨?_, h⟩
    cases v with
    | some v => left; rfl
    | none =>
      right
      apply childIds_two _ (hn rfl)
      simpa using hne
  · rw [hm]
    have := h i
    rw [hc] at this
    exact this

/-- A well-formed node has nothing to merge. -/
theorem merge_of_WF {n : Node V} (h : WF n) : merge n = (n, false) := by
  cases n with
  | nil => rfl
  | mk p v c =>
    rcases merge_cases p v c with ⟨hm, -⟩ | ⟨i, p2, v2, c2, rfl, hi, hc, hm⟩
    · exact hm
    · exfalso
      obtain ⟨-, h2⟩ := childIds_eq_singleton hi
      rcases h.1 with h | ⟨a, b, hab, ha, hb⟩
      · simp at h
      · have : ∀ j, (c j).isSome = true → j = i := by
          intro j hj
          by_contra hne
          rw [h2 j hne] at hj
          simp [Node.isSome] at hj
        exact hab ((this a ha).trans (this b hb).symm)

/-! ### delete -/

/-- Everything a deletion does to a well-formed node. -/
structure DelSpec (n : Node V) (q : List Nib) (r : DelRes V) : Prop where
  look : ∀ k, lookup r.node k = if k = reach n q then none else lookup n k
  changed : r.changed = (lookup n (reach n q)).isSome
  old : r.old = lookup n (reach n q)
  delta : r.delta = delDelta (lookup n (reach n q))
  some : r.node.isSome = true
  removed : r.remove = true → r.changed = true ∧ ∃ p c, r.node = .mk p none c ∧ ∀ i, c i = .nil
  kept : r.remove = false → WF r.node
  same : r.changed = false → r.node = n

theorem removeValue_spec {p : List Nib} {v : Option V} {c : Nib → Node V} (hwf : WF (.mk p v c)) (q : List Nib)
    (hr : reach (.mk p v c) q = p) : DelSpec (.mk p v c) q (removeValue p v c) := by
  rw [removeValue]
  have hl : ∀ k, lookup (.mk p none c) k = if k = p then none else lookup (.mk p v c) k :=
    fun k => lookup_setValue p v c none k
  cases hc : hasChildren c with
  | false =>
    have hv : v.isSome = true := by
      rcases hwf.1 with h | ⟨a, b, _, ha, _⟩
      · exact h
      · have := (hasChildren_false c).1 hc a
        rw [this] at ha
        simp [Node.isSome] at ha
    simp only [if_true]
    refine ⟨?_, ?_, ?_, ?_, rfl, ?_, by simp, ?_⟩
    · rw [hr]; exact hl
    · rw [hr]; simp
    · rw [hr]; simp
    · rw [hr]; simp
    · intro _
      exact ⟨hv, p, c, rfl, (hasChildren_false c).1 hc⟩
    · simp [hv]
  | true =>
    simp only [Bool.true_eq_false, if_false]
    have hm : v = none → merge (.mk p none c) = (.mk p none c, false) := by
      rintro rfl
      exact merge_of_WF hwf
    refine ⟨?_, ?_, ?_, ?_, ?_, by simp, ?_, ?_⟩
    · intro k
      rw [hr, lookup_merge]; exact hl k
    · rw [hr]
      cases v with
      | none => simp [hm rfl]
      | some v => simp
    · rw [hr]; simp
    · rw [hr]; simp
    · rw [merge_isSome]; rfl
    · intro _
      exact merge_WF hwf.2 (by simp [hc])
    · intro h
      cases v with
      | none => simp [hm rfl]
      | some v => simp at h

theorem delete_spec (n : Node V) (hs : n.isSome = true) (hwf : WF n) (q : List Nib) : DelSpec n q (delete n q) := by
  induction n generalizing q with
  | nil => simp [Node.isSome] at hs
  | mk p v c ih =>
    rw [delete]
    have he := not_empty_of_WF hwf
    simp only [he, Bool.false_eq_true, if_false]
    by_cases hq : q = []
    · simp only [hq, if_true]
      exact removeValue_spec hwf [] (by simp [reach])
    · simp only [hq, if_false]
      have hnone : ∀ (_ : lookup (.mk p v c) q = none) (_ : reach (.mk p v c) q = q),
          DelSpec (.mk p v c) q ⟨.mk p v c, false, false, none, 0⟩ := by
        intro h1 h2
        refine ⟨?_, ?_, ?_, ?_, rfl, by simp, fun _ => hwf, fun _ => rfl⟩
        · intro k
          rw [h2]
          split
          · rename_i hk; rw [hk, h1]
          · rfl
        · rw [h2, h1]; rfl
        · rw [h2, h1]
        · rw [h2, h1]; rfl
      cases hp : p.drop (matchPrefix p q) with
      | cons j p' =>
        have hnp : ¬ p <+: q := by
          rintro ⟨r, rfl⟩
          rw [matchPrefix_append] at hp
          simp at hp
        simp only [reduceCtorEq, if_false]
        exact hnone (lookup_not_prefix v c hnp) (by simp [reach, hq, he, hp])
      | nil =>
        obtain ⟨h1, -⟩ := matchPrefix_full hp
        simp only [if_true]
        cases hd : q.drop (matchPrefix p q) with
        | nil =>
          rw [hd] at h1
          simp only [List.append_nil] at h1
          exact removeValue_spec hwf q (by simp only [reach, hq, he, hp, hd, if_false, Bool.false_eq_true]; exact h1)
        | cons i q' =>
          rw [hd] at h1
          cases hc : (c i).isSome with
          | false =>
            have hn := (isSome_false _).1 hc
            simp only [hc, if_true]
            refine hnone ?_ (by simp [reach, hq, he, hp, hd, hc])
            rw [h1, lookup_mk_child, hn]; simp
          | true =>
            simp only [hc, Bool.true_eq_false, if_false]
            have hr : reach (.mk p v c) q = p ++ i :: reach (c i) q' := by
              simp [reach, hq, he, hp, hd, hc]
            have S := ih i hc (hwf.2 i) q'
            generalize hres : delete (c i) q' = r at S
            -- the new children
            generalize hcc : (if (r.changed && r.remove) = true then setChild c i Node.nil else setChild c i r.node) = c'
            have hrem : r.remove = true → ∀ k, lookup r.node k = none := by
              intro h k
              obtain ⟨-, p0, c0, hn, hc0⟩ := S.removed h
              rw [hn]
              rcases query_cases p0 k with h | rfl | ⟨a, b, rfl⟩
              · exact lookup_not_prefix _ _ h
              · simp
              · simp [hc0]
            have hlook : ∀ k, lookup (.mk p v c') k = lookup (.mk p v (setChild c i r.node)) k := by
              intro k
              rw [← hcc]
              split
              · rename_i hb
                simp at hb
                rw [lookup_setChild, lookup_setChild]
                split
                · rw [hrem hb.2]; simp
                · rfl
              · rfl
            have hl : ∀ k, lookup (.mk p v c') k = if k = reach (.mk p v c) q then none else lookup (.mk p v c) k := by
              intro k
              rw [hlook, hr, lookup_setChild]
              by_cases hk : p ++ [i] <+: k
              · obtain ⟨s, rfl⟩ := hk
                rw [if_pos (List.prefix_append _ _)]
                have e1 : (p ++ [i] ++ s).drop (p.length + 1) = s := by
                  rw [List.drop_append_of_le_length (by simp)]; simp
                rw [e1, S.look]
                have e2 : p ++ [i] ++ s = p ++ i :: s := by simp
                rw [e2, lookup_mk_child]
                simp
              · rw [if_neg hk, if_neg]
                rintro rfl
                exact hk ⟨reach (c i) q', by simp⟩
            have hWc : ∀ j, WF (c' j) := by
              intro j
              rw [← hcc]
              split
              · exact WF_setChild hwf.2 i WF_nil j
              · rename_i hb
                apply WF_setChild hwf.2 i _ j
                apply S.kept
                cases hrm : r.remove with
                | false => rfl
                | true =>
                  have := (S.removed hrm).1
                  simp [this, hrm] at hb
            have hv : lookup (.mk p v c) (reach (.mk p v c) q) = lookup (c i) (reach (c i) q') := by
              rw [hr, lookup_mk_child]
            have hun : r.changed = false → c' = c := by
              intro h
              rw [← hcc, h]
              simp only [Bool.false_and, Bool.false_eq_true, if_false]
              rw [S.same h]
              funext j
              by_cases hj : j = i <;> simp [setChild, hj]
            by_cases hz : hasChildren c' = false ∧ v.isNone = true
            · rw [if_pos hz]
              have hch : r.changed = true := by
                by_contra hh
                rw [hun (by simpa using hh)] at hz
                rcases hwf.1 with h | ⟨a, b, _, ha, _⟩
                · simp at hz
                  simp [hz.2] at h
                · rw [(hasChildren_false c).1 hz.1 a] at ha
                  simp [Node.isSome] at ha
              refine ⟨hl, ?_, ?_, ?_, rfl, ?_, by simp, ?_⟩
              · rw [hv]; exact S.changed
              · rw [hv]; exact S.old
              · rw [hv]; exact S.delta
              · intro _
                refine ⟨hch, p, c', ?_, (hasChildren_false c').1 hz.1⟩
                have : v = none := by simpa using hz.2
                simp [this]
              · intro h
                simp [hch] at h
            · rw [if_neg hz]
              refine ⟨?_, ?_, ?_, ?_, ?_, by simp, ?_, ?_⟩
              · intro k; rw [lookup_merge]; exact hl k
              · rw [hv]; exact S.changed
              · rw [hv]; exact S.old
              · rw [hv]; exact S.delta
              · rw [merge_isSome]; rfl
              · intro _; exact merge_WF hWc hz
              · intro h
                have := hun h
                simp only [this]
                rw [merge_of_WF hwf]

/-! ### canonical form -/

/-- Two well-formed trees that denote the same map are the same tree. -/
theorem canonical {n m : Node V} (hn : WF n) (hm : WF m) (h : ∀ k, lookup n k = lookup m k) : n = m := by
  induction n generalizing m with
  | nil =>
    cases m with
    | nil => rfl
    | mk p v c =>
      obtain ⟨q, hq⟩ := hm.nonempty rfl
      rw [← h q] at hq
      simp at hq
  | mk p v c ih =>
    cases m with
    | nil =>
      obtain ⟨q, hq⟩ := hn.nonempty rfl
      rw [h q] at hq
      simp at hq
    | mk p2 v2 c2 =>
      -- neither prefix can properly extend the other
      have key : ∀ (p p2 : List Nib) (v v2 : Option V) (c c2 : Nib → Node V), WF (.mk p v c) →
          (∀ k, lookup (.mk p v c) k = lookup (.mk p2 v2 c2) k) → ∀ i t, p2 ≠ p ++ i :: t := by
        rintro p p2 v v2 c c2 hn h i t rfl
        have hall : ∀ k, (lookup (.mk p v c) k).isSome = true → p ++ [i] <+: k := by
          intro k hk
          rw [h k] at hk
          by_contra hc
          rw [lookup_not_prefix] at hk
          · simp at hk
          · intro hp
            exact hc (List.IsPrefix.trans ⟨t, by simp⟩ hp)
        rcases hn.1 with hv | ⟨a, b, hab, ha, hb⟩
        · have := (hall p (by simpa using hv)).length_le
          simp at this
          try omega
        · have h3 : ∀ a, (c a).isSome = true → a = i := by
            intro a ha
            obtain ⟨q, hq⟩ := (hn.2 a).nonempty ha
            obtain ⟨r, hr⟩ := hall (p ++ a :: q) (by simpa using hq)
            simp at hr
            exact hr.1.symm
          exact hab ((h3 a ha).trans (h3 b hb).symm)
      have hpp : p = p2 := by
        obtain ⟨q, hq⟩ := hn.nonempty rfl
        have h1 : p <+: q := by
          by_contra hc
          rw [lookup_not_prefix _ _ hc] at hq
          simp at hq
        have h2 : p2 <+: q := by
          by_contra hc
          rw [h q, lookup_not_prefix _ _ hc] at hq
          simp at hq
        rcases List.prefix_or_prefix_of_prefix h1 h2 with ⟨r, hr⟩ | ⟨r, hr⟩
        · cases r with
          | nil => simpa using hr
          | cons i t => exact absurd hr.symm (key p p2 v v2 c c2 hn h i t)
        · cases r with
          | nil => simpa using hr.symm
          | cons i t => exact absurd hr.symm (key p2 p v2 v c2 c hm (fun k => (h k).symm) i t)
      subst hpp
      have hvv : v = v2 := by simpa using h p
      have hcc : c = c2 := by
        funext i
        apply ih i (hn.2 i) (hm.2 i)
        intro k
        simpa using h (p ++ i :: k)
      rw [hvv, hcc]

end Verif.Trie

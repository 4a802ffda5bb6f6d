import Verif.Nodes.Props

/-!
# Properties C63, C94, C95: `NodeIDSet`, data server serialization, boot node lists
-/

namespace Verif.Nodes
open Verif

/-! ## C63 NodeIDSet -/

/-- The index agrees with the list. -/
def Consistent (s : NodeSet) : Prop := ∀ id i, s.m id = some i ↔ s.l[i]? = some id

theorem Consistent.nodup {s : NodeSet} (h : Consistent s) : s.l.Nodup := by
  rw [List.nodup_iff_injective_getElem]
  intro i j hij
  have h1 := (h s.l[i.1] i.1).2 (List.getElem?_eq_getElem i.2)
  have h2 := (h s.l[j.1] j.1).2 (List.getElem?_eq_getElem j.2)
  simp only at hij
  rw [hij, h2] at h1
  exact Fin.ext (Option.some.inj h1).symm

theorem Consistent.mem_iff {s : NodeSet} (h : Consistent s) (id : Bytes) : id ∈ s.l ↔ (s.m id).isSome := by
  rw [Option.isSome_iff_exists, List.mem_iff_getElem?]
  simp only [h id]

theorem consistent_empty : Consistent NodeSet.empty := by
  intro id i; simp [NodeSet.empty]

theorem consistent_append {s : NodeSet} (h : Consistent s) (id : Bytes) (hm : s.m id = none) :
    Consistent ⟨mapSet s.m id s.l.length, s.l ++ [id]⟩ := by
  intro x i
  simp only [mapSet]
  by_cases hx : x = id
  · subst hx
    rw [if_pos rfl]
    constructor
    · intro he
      rw [← Option.some.inj he]
      simp
    · intro he
      by_cases hi : i < s.l.length
      · rw [List.getElem?_append_left hi] at he
        rw [← h, hm] at he
        cases he
      · rw [List.getElem?_append_right (by omega)] at he
        have : i - s.l.length = 0 := by
          by_contra hc
          rw [List.getElem?_eq_none (by simp; omega)] at he
          cases he
        congr 1
        omega
  · rw [if_neg hx, h]
    by_cases hi : i < s.l.length
    · rw [List.getElem?_append_left hi]
    · rw [List.getElem?_eq_none (by omega), List.getElem?_append_right (by omega)]
      constructor
      · intro he; cases he
      · intro he
        have := List.mem_of_getElem? he
        simp only [List.mem_singleton] at this
        exact absurd this hx

/-- C63: `Put` appends a new id and says so, and leaves a set holding the id alone. -/
theorem C63_put (s : NodeSet) (h : Consistent s) (id : Bytes) :
    Consistent (s.put id).1 ∧ (s.put id).1.l = (if id ∈ s.l then s.l else s.l ++ [id]) ∧
      ((s.put id).2 = true ↔ id ∉ s.l) := by
  have hm := h.mem_iff id
  unfold NodeSet.put
  cases hid : s.m id with
  | some i =>
    rw [hid] at hm
    have : id ∈ s.l := hm.2 rfl
    simp [this, h]
  | none =>
    rw [hid] at hm
    have : id ∉ s.l := fun hc => by simpa using hm.1 hc
    simp [this, consistent_append h id hid]

/-- The list after deleting the element at the recorded position. -/
theorem delete_eq {s : NodeSet} (h : Consistent s) (id : Bytes) :
    s.delete id = .ok (if id ∈ s.l then ⟨mapDel s.m id, s.l.erase id⟩ else s) := by
  have hm := h.mem_iff id
  unfold NodeSet.delete
  cases hid : s.m id with
  | none =>
    rw [hid] at hm
    have : id ∉ s.l := fun hc => by simpa using hm.1 hc
    simp [this]
  | some i =>
    rw [hid] at hm
    have hin : id ∈ s.l := hm.2 rfl
    have hget := (h id i).1 hid
    have hi : i < s.l.length := by
      by_contra hc
      rw [List.getElem?_eq_none (by omega)] at hget; cases hget
    have hgi : s.l[i] = id := by
      rw [List.getElem?_eq_getElem hi] at hget
      exact Option.some.inj hget
    simp only
    rw [if_neg (by omega), if_pos hin]
    congr 2
    have h1 : goCopyAt s.l i (s.l.drop (i + 1)) = s.l.take i ++ s.l.drop (i + 1) ++ s.l.drop (i + (s.l.length - (i + 1))) := by
      rw [goCopyAt_of_fits _ _ _ (by simp; omega), List.length_drop]
    rw [h1, List.take_append_of_le_length (by simp; omega), List.take_of_length_le (by simp; omega),
      ← List.eraseIdx_eq_take_drop_succ, ← hgi, List.Nodup.erase_getElem h.nodup i hi]

/-- C63: in a consistent set `Delete` removes exactly the id from the list (and never panics). -/
theorem C63_delete_list (s : NodeSet) (h : Consistent s) (id : Bytes) :
    ∃ t, s.delete id = .ok t ∧ t.l = s.l.erase id ∧ ∀ x, x ∈ t.l ↔ x ∈ s.l ∧ x ≠ id := by
  refine ⟨_, delete_eq h id, ?_, ?_⟩
  · split
    · rfl
    · rename_i hin; exact (List.erase_of_not_mem hin).symm
  · intro x
    split
    · simp only
      rw [List.Nodup.mem_erase_iff h.nodup]
      exact And.comm
    · rename_i hin
      constructor
      · intro hx; exact ⟨hx, fun he => hin (he ▸ hx)⟩
      · exact And.left

/-- C63: the exact set of deletions after which the index is right: the id is not in the set, or it is the last one. -/
theorem C63_delete_index (s : NodeSet) (h : Consistent s) (id : Bytes) (t : NodeSet) (ht : s.delete id = .ok t) :
    Consistent t ↔ id ∉ s.l ∨ s.l.getLast? = some id := by
  rw [delete_eq h id] at ht
  have ht := Res.ok.inj ht
  by_cases hin : id ∈ s.l
  · rw [if_pos hin] at ht
    subst ht
    obtain ⟨i, hi, hgi⟩ := List.getElem_of_mem hin
    have herase : s.l.erase id = s.l.eraseIdx i := by rw [← hgi, List.Nodup.erase_getElem h.nodup i hi]
    have hlast : s.l.getLast? = some id ↔ i + 1 = s.l.length := by
      rw [List.getLast?_eq_getElem?]
      constructor
      · intro he
        have h1 := (h id _).2 he
        have h2 := (h id i).2 (by rw [List.getElem?_eq_getElem hi, hgi])
        rw [h1] at h2
        have := Option.some.inj h2
        omega
      · intro he
        rw [show s.l.length - 1 = i by omega, List.getElem?_eq_getElem hi, hgi]
    simp only [hin, not_true_eq_false, false_or, hlast]
    rw [herase]
    constructor
    · intro hc
      by_contra hne
      have hlt : i + 1 < s.l.length := by omega
      have h1 : (s.l.eraseIdx i)[i]? = some s.l[i + 1] := by
        rw [List.getElem?_eraseIdx_of_ge (Nat.le_refl _), List.getElem?_eq_getElem hlt]
      have h2 := (hc s.l[i + 1] i).2 h1
      have h3 := (h s.l[i + 1] (i + 1)).2 (List.getElem?_eq_getElem hlt)
      have hne' : s.l[i + 1] ≠ id := by
        intro he
        rw [← hgi] at he
        have := (List.Nodup.getElem_inj_iff h.nodup).1 he
        omega
      simp only [mapDel, if_neg hne', h3, Option.some.injEq] at h2
      omega
    · intro he x j
      simp only [mapDel]
      by_cases hx : x = id
      · subst hx
        rw [if_pos rfl]
        simp only [reduceCtorEq, false_iff]
        intro hc
        have h1 : x ∈ s.l.eraseIdx i := List.mem_of_getElem? hc
        rw [← herase, List.Nodup.mem_erase_iff h.nodup] at h1
        exact h1.1 rfl
      · rw [if_neg hx, h]
        by_cases hj : j < i
        · rw [List.getElem?_eraseIdx_of_lt hj]
        · rw [List.getElem?_eraseIdx_of_ge (by omega), List.getElem?_eq_none (i := j + 1) (by omega)]
          constructor
          · intro hc
            by_cases hji : j = i
            · subst hji
              rw [List.getElem?_eq_getElem hi, hgi] at hc
              exact absurd (Option.some.inj hc).symm hx
            · rw [List.getElem?_eq_none (by omega)] at hc
              cases hc
          · intro hc; cases hc
  · rw [if_neg hin] at ht
    subst ht
    simp [hin, h]

/-- One call on the set. -/
inductive SetOp where
  | put (id : Bytes)
  | delete (id : Bytes)

/-- The set after a sequence of calls; a panic ends the run. -/
def runSet (s : NodeSet) : List SetOp → Res NodeSet
  | [] => .ok s
  | .put id :: ops => runSet (s.put id).1 ops
  | .delete id :: ops => match s.delete id with
    | .ok t => runSet t ops
    | .err => .err
    | .panic => .panic

/-- The ordered set the calls describe. -/
def specSet (l : List Bytes) : List SetOp → List Bytes
  | [] => l
  | .put id :: ops => specSet (if id ∈ l then l else l ++ [id]) ops
  | .delete id :: ops => specSet (l.erase id) ops

/-- The histories in which only the most recently added id is ever deleted. -/
def LastOnly (l : List Bytes) : List SetOp → Prop
  | [] => True
  | .put id :: ops => LastOnly (if id ∈ l then l else l ++ [id]) ops
  | .delete id :: ops => (id ∉ l ∨ l.getLast? = some id) ∧ LastOnly (l.erase id) ops

/-- C63 (partial: only the last id is ever deleted, see `C63_refuted`): the set is the ordered set described by the
calls, and `GetIndex` returns positions. -/
theorem C63_history_partial (ops : List SetOp) : ∀ (s : NodeSet), Consistent s → LastOnly s.l ops →
    ∃ t, runSet s ops = .ok t ∧ t.l = specSet s.l ops ∧ ∀ id i, t.getIndex id = some i ↔ (specSet s.l ops)[i]? = some id := by
  induction ops with
  | nil => intro s h _; exact ⟨s, rfl, rfl, h⟩
  | cons op ops ih =>
    intro s h hl
    cases op with
    | put id =>
      obtain ⟨h1, h2, -⟩ := C63_put s h id
      rw [LastOnly, ← h2] at hl
      rw [runSet, specSet, ← h2]
      exact ih _ h1 hl
    | delete id =>
      obtain ⟨t, ht, hlst, -⟩ := C63_delete_list s h id
      rw [LastOnly, ← hlst] at hl
      rw [runSet, specSet, ← hlst, ht]
      exact ih t ((C63_delete_index s h id t ht).2 hl.1) hl.2

/-- C63 (partial): one further deletion of any id still leaves the right list. -/
theorem C63_one_deletion_partial (ops : List SetOp) (hl : LastOnly [] ops) (id : Bytes) :
    ∃ t, runSet .empty (ops ++ [.delete id]) = .ok t ∧ t.l = specSet [] (ops ++ [.delete id]) := by
  have happ : ∀ (ops : List SetOp) (s : NodeSet) t, runSet s ops = .ok t →
      runSet s (ops ++ [.delete id]) = runSet t [.delete id] := by
    intro ops
    induction ops with
    | nil => intro s t h; cases h; rfl
    | cons op ops ih =>
      intro s t h
      cases op with
      | put x => exact ih _ t h
      | delete x =>
        simp only [List.cons_append, runSet] at h ⊢
        cases hd : s.delete x with
        | ok u => rw [hd] at h; exact ih u t h
        | err => rw [hd] at h; cases h
        | panic => rw [hd] at h; cases h
  have hspec : ∀ (ops : List SetOp) (l : List Bytes), specSet l (ops ++ [.delete id]) = (specSet l ops).erase id := by
    intro ops
    induction ops with
    | nil => intro l; rfl
    | cons op ops ih => intro l; cases op <;> exact ih _
  obtain ⟨t, h1, h2, h3⟩ := C63_history_partial ops .empty consistent_empty hl
  have hc : Consistent t := by
    intro x i
    have := h3 x i
    rw [← h2] at this
    exact this
  obtain ⟨u, hu, hul, -⟩ := C63_delete_list t hc id
  refine ⟨u, ?_, ?_⟩
  · rw [happ ops _ t h1, runSet, hu]; rfl
  · rw [hul, h2, hspec]; rfl

/-- C63 refuted (1): after putting a, b, c and deleting a, `GetIndex(b)` is 1 although b is first. -/
theorem C63_index_refuted : ∃ (s t : NodeSet), runSet .empty [.put [1], .put [2], .put [3]] = .ok s ∧
    s.delete [1] = .ok t ∧ t.l = [[2], [3]] ∧ t.getIndex [2] = some 1 :=
  ⟨_, _, rfl, rfl, by decide +kernel, by decide +kernel⟩

/-- C63 refuted (2): deleting b next removes c from the list instead. -/
theorem C63_refuted : ∃ t : NodeSet, runSet .empty [.put [1], .put [2], .put [3], .delete [1], .delete [2]] = .ok t ∧
    t.l = [[2]] ∧ specSet [] [.put [1], .put [2], .put [3], .delete [1], .delete [2]] = [[3]] :=
  ⟨_, rfl, by decide +kernel, by decide +kernel⟩

/-- C63 refuted (3): putting a, b and deleting a, b panics. -/
theorem C63_panic_refuted : runSet .empty [.put [1], .put [2], .delete [1], .delete [2]] = .panic := rfl

/-! ### Sorting the set -/

theorem swap_spec {s : NodeSet} (h : Consistent s) {i j : Nat} (hi : i < s.l.length) (hj : j < s.l.length) :
    Consistent (s.swap i j) ∧ (s.swap i j).l.Perm s.l := by
  have gi : s.l.getD i [] = s.l[i] := by rw [List.getD_eq_getElem?_getD, List.getElem?_eq_getElem hi]; rfl
  have gj : s.l.getD j [] = s.l[j] := by rw [List.getD_eq_getElem?_getD, List.getElem?_eq_getElem hj]; rfl
  have hperm : (s.swap i j).l.Perm s.l := by
    unfold NodeSet.swap
    rw [gi, gj]
    exact List.set_set_perm hi hj
  refine ⟨?_, hperm⟩
  intro x k
  unfold NodeSet.swap
  simp only [mapSet]
  rw [gi, gj]
  have hmx := h x
  by_cases hxj : x = s.l[j]
  · rw [if_pos hxj]
    constructor
    · intro he
      rw [← Option.some.inj he]
      by_cases hij : i = j
      · subst hij
        rw [List.getElem?_set_self (by simpa using hi), hxj]
      · rw [List.getElem?_set_ne (fun h => hij h.symm), List.getElem?_set_self hi, hxj]
    · intro he
      by_cases hkj : k = j
      · subst hkj
        rw [List.getElem?_set_self (by simpa using hj)] at he
        have := Option.some.inj he
        rw [hxj] at this
        have := (List.Nodup.getElem_inj_iff h.nodup).1 this
        rw [this]
      · rw [List.getElem?_set_ne (fun h => hkj h.symm)] at he
        by_cases hki : k = i
        · rw [hki]
        · rw [List.getElem?_set_ne (fun h => hki h.symm), ← h, hxj, (h _ j).2 (List.getElem?_eq_getElem hj)] at he
          exact absurd (Option.some.inj he).symm hkj
  · rw [if_neg hxj]
    by_cases hxi : x = s.l[i]
    · rw [if_pos hxi]
      constructor
      · intro he
        rw [← Option.some.inj he, List.getElem?_set_self (by simpa using hj), hxi]
      · intro he
        by_cases hkj : k = j
        · rw [hkj]
        · rw [List.getElem?_set_ne (fun h => hkj h.symm)] at he
          by_cases hki : k = i
          · subst hki
            rw [List.getElem?_set_self hi] at he
            exact absurd (Option.some.inj he).symm hxj
          · rw [List.getElem?_set_ne (fun h => hki h.symm), ← h, hxi, (h _ i).2 (List.getElem?_eq_getElem hi)] at he
            exact absurd (Option.some.inj he).symm hki
    · rw [if_neg hxi, h]
      by_cases hkj : k = j
      · subst hkj
        rw [List.getElem?_set_self (by simpa using hj), List.getElem?_eq_getElem hj]
        constructor
        · intro he; exact absurd (Option.some.inj he).symm hxj
        · intro he; exact absurd (Option.some.inj he).symm hxi
      · rw [List.getElem?_set_ne (fun h => hkj h.symm)]
        by_cases hki : k = i
        · subst hki
          rw [List.getElem?_set_self hi, List.getElem?_eq_getElem hi]
          constructor
          · intro he; exact absurd (Option.some.inj he).symm hxi
          · intro he; exact absurd (Option.some.inj he).symm hxj
        · rw [List.getElem?_set_ne (fun h => hki h.symm)]

theorem swaps_spec {s t : NodeSet} (h : Swaps s t) : Consistent s → Consistent t ∧ t.l.Perm s.l := by
  induction h with
  | refl s => intro hc; exact ⟨hc, List.Perm.refl _⟩
  | step i j hi hj _ ih =>
    intro hc
    obtain ⟨h1, h2⟩ := swap_spec hc hi hj
    obtain ⟨h3, h4⟩ := ih h1
    exact ⟨h3, h4.trans h2⟩

theorem sorts_spec {s t : NodeSet} (h : Sorts s t) (hc : Consistent s) :
    Consistent t ∧ t.l.Perm s.l ∧ Sorted t.l := by
  obtain ⟨h1, h2⟩ := swaps_spec h.1 hc
  refine ⟨h1, h2, strictSorted_of bytesCompare_lawful ?_ h1.nodup⟩
  refine h.2.imp ?_
  intro a b hab
  rw [← bytesCompare_lawful.not_le] at hab
  exact not_not.1 hab

theorem newLoop_spec (ids : List Bytes) : ∀ s, Consistent s →
    Consistent (newLoop s ids) ∧ ∀ x, x ∈ (newLoop s ids).l ↔ x ∈ s.l ∨ x ∈ ids := by
  induction ids with
  | nil => intro s h; simp [newLoop, h]
  | cons a ids ih =>
    intro s h
    have hm := h.mem_iff a
    rw [newLoop]
    cases ha : s.m a with
    | some i =>
      rw [ha] at hm
      have hin : a ∈ s.l := hm.2 rfl
      obtain ⟨h1, h2⟩ := ih s h
      refine ⟨h1, fun x => ?_⟩
      simp only [h2, List.mem_cons]
      constructor
      · rintro (h | h)
        · exact Or.inl h
        · exact Or.inr (Or.inr h)
      · rintro (h | rfl | h)
        · exact Or.inl h
        · exact Or.inl hin
        · exact Or.inr h
    | none =>
      obtain ⟨h1, h2⟩ := ih _ (consistent_append h a ha)
      refine ⟨h1, fun x => ?_⟩
      simp only [h2, List.mem_append, List.mem_cons, List.not_mem_nil, or_false, or_assoc]

/-- C63: `NewNodeIDSet` yields the ids given, each once, in ascending order, with a right index, whatever sorting
algorithm is used. -/
theorem C63_new (ids : List Bytes) (t : NodeSet) (h : NewSet ids t) :
    Consistent t ∧ Sorted t.l ∧ ∀ x, x ∈ t.l ↔ x ∈ ids := by
  unfold NewSet at h
  split at h
  · rename_i h0
    rw [List.length_eq_zero_iff] at h0
    subst h0 h
    exact ⟨consistent_empty, List.Pairwise.nil, fun x => by simp [NodeSet.empty]⟩
  · obtain ⟨h1, h2⟩ := newLoop_spec ids NodeSet.empty consistent_empty
    obtain ⟨h3, h4, h5⟩ := sorts_spec h h1
    refine ⟨h3, h5, fun x => ?_⟩
    rw [h4.mem_iff, h2]
    simp [NodeSet.empty]

/-- C63 (partial, see `C63_getNodeIDs_refuted`): `GetNodeIDs` returns as many zero ids as the set has members, followed
by the members in ascending order; the set is left sorted, with a right index. -/
theorem C63_getNodeIDs_partial (s t : NodeSet) (hc : Consistent s) (out : List Bytes) (h : GetNodeIDs s t out) :
    Consistent t ∧ t.l.Perm s.l ∧ ∃ r, out = List.replicate s.l.length (List.replicate 64 0) ++ r ∧ Sorted r ∧
      ∀ x, x ∈ r ↔ x ∈ s.l := by
  unfold GetNodeIDs at h
  split at h
  · obtain ⟨h1, h2, h3⟩ := sorts_spec h.1 hc
    exact ⟨h1, h2, t.l, h.2, h3, fun x => h2.mem_iff⟩
  · rename_i h0
    have h0 : s.l = [] := List.length_eq_zero_iff.1 (by omega)
    obtain ⟨rfl, rfl⟩ := h
    refine ⟨hc, List.Perm.refl _, [], ?_, List.Pairwise.nil, fun x => by rw [h0]⟩
    rw [h0]; rfl

/-- C63 refuted (4): the listing of a set with one member has two entries, the first of which is not a member. -/
theorem C63_getNodeIDs_refuted : ∃ (s t : NodeSet) (out : List Bytes), Consistent s ∧ GetNodeIDs s t out ∧
    s.l = [List.replicate 64 7] ∧ out = [List.replicate 64 0, List.replicate 64 7] := by
  refine ⟨(NodeSet.empty.put (List.replicate 64 7)).1, (NodeSet.empty.put (List.replicate 64 7)).1, _,
    (C63_put _ consistent_empty _).1, ?_, rfl, rfl⟩
  unfold GetNodeIDs
  rw [if_pos (by decide)]
  exact ⟨⟨Swaps.refl _, by simp [NodeSet.put, NodeSet.empty]⟩, rfl⟩

/-- Every consistent set can be sorted by swaps (the relation is not empty): shown here for two elements. -/
example : ∃ t, Sorts (newLoop NodeSet.empty [[2], [1], [2]]) t ∧ t.l = [[1], [2]] ∧ t.getIndex [2] = some 1 := by
  refine ⟨(newLoop NodeSet.empty [[2], [1], [2]]).swap 0 1, ⟨Swaps.step 0 1 (by decide) (by decide) (Swaps.refl _), ?_⟩,
    by decide +kernel, by decide +kernel⟩
  have : ((newLoop NodeSet.empty [[2], [1], [2]]).swap 0 1).l = [[1], [2]] := by decide +kernel
  rw [this]
  decide

/-! ## C94 data server serialization -/

theorem itoa_ne_nil (n : Nat) : itoa n ≠ [] := by
  rw [itoa]; split <;> simp

theorem itoa_inj : ∀ a b : Nat, itoa a = itoa b → a = b := by
  intro a
  induction a using Nat.strongRecOn with
  | _ a ih =>
    intro b h
    have hd : ∀ x y : Nat, x < 10 → y < 10 → UInt8.ofNat (48 + x) = UInt8.ofNat (48 + y) → x = y := by
      intro x y hx hy he
      have := congrArg UInt8.toNat he
      rw [UInt8.toNat_ofNat', UInt8.toNat_ofNat'] at this
      omega
    rw [itoa.eq_def a, itoa.eq_def b] at h
    split at h
    · rename_i ha
      split at h
      · rename_i hb
        exact hd a b ha hb (by simpa using h)
      · have := congrArg List.length h
        have hne := List.length_pos_iff.2 (itoa_ne_nil (b / 10))
        simp at this
        exact absurd this (itoa_ne_nil _)
    · rename_i ha
      split at h
      · have := congrArg List.length h
        simp at this
        exact absurd this (itoa_ne_nil _)
      · obtain ⟨h1, h2⟩ := List.append_inj' h rfl
        have e1 := ih (a / 10) (by omega) (b / 10) h1
        have e2 := hd (a % 10) (b % 10) (by omega) (by omega) (by simpa using h2)
        omega

/-- C94 (partial, see `C94_refuted`: servers differing in several fields may collide): two data servers that differ in
exactly one field have different serializations. -/
theorem C94_one_field_partial (d : Server) :
    (∀ v, ({ d with chain := v } : Server).hashSerialize = d.hashSerialize → v = d.chain) ∧
    (∀ v, ({ d with nid := v } : Server).hashSerialize = d.hashSerialize → v = d.nid) ∧
    (∀ v, ({ d with ip := v } : Server).hashSerialize = d.hashSerialize → v = d.ip) ∧
    (∀ v, ({ d with basic := v } : Server).hashSerialize = d.hashSerialize → v = d.basic) ∧
    (∀ v, ({ d with cons0 := v } : Server).hashSerialize = d.hashSerialize → v = d.cons0) ∧
    (∀ v, ({ d with cons1 := v } : Server).hashSerialize = d.hashSerialize → v = d.cons1) ∧
    (∀ v, ({ d with data0 := v } : Server).hashSerialize = d.hashSerialize → v = d.data0) ∧
    (∀ v, ({ d with data1 := v } : Server).hashSerialize = d.hashSerialize → v = d.data1) ∧
    (∀ v, ({ d with rpc := v } : Server).hashSerialize = d.hashSerialize → v = d.rpc) := by
  refine ⟨?_, ?_, ?_, ?_, ?_, ?_, ?_, ?_, ?_⟩ <;>
  · intro v h
    simp only [Server.hashSerialize, List.append_assoc, List.append_cancel_left_eq] at h
    first
    | exact itoa_inj _ _ h
    | exact itoa_inj _ _ (List.append_cancel_right h)
    | exact List.append_cancel_right h

/-- C94 refuted: two valid-looking servers with different ports and the same serialization. -/
theorem C94_refuted : ∃ a b : Server, a ≠ b ∧ a.hashSerialize = b.hashSerialize :=
  ⟨⟨1, [97], [49], 11, 1, 5, 6, 7, 8⟩, ⟨1, [97], [49], 1, 11, 5, 6, 7, 8⟩, by decide, by decide +kernel⟩

example : (⟨1, [97], [49], 11, 1, 5, 6, 7, 80⟩ : Server).hashSerialize = "1a111156780".toUTF8.toList := by decide +kernel

/-! ## C95 boot node lists -/

theorem hexDecode_encode (x : Bytes) : Hex.hexDecode (Hex.hexEncode x) = (x, true) :=
  (Hex.hexDecode_spec _ _).2 (Hex.forall2_hexEncode x)

theorem hexChar_lt (a b : Nat) (ha : a < 16) (hb : b < 16) :
    (Hex.hexChar a < Hex.hexChar b) ↔ a < b := by
  have : ∀ a : Fin 16, ∀ b : Fin 16, (Hex.hexChar a < Hex.hexChar b) ↔ a.1 < b.1 := by decide +kernel
  exact this ⟨a, ha⟩ ⟨b, hb⟩

/-- Lower-case hex strings are ordered like the bytes they spell. -/
theorem compare_hexEncode : ∀ x y : Bytes, bytesCompare (Hex.hexEncode x) (Hex.hexEncode y) = bytesCompare x y := by
  intro x
  induction x with
  | nil => intro y; cases y <;> simp [Hex.hexEncode, bytesCompare]
  | cons a x ih =>
    intro y
    cases y with
    | nil => simp [Hex.hexEncode, bytesCompare]
    | cons b y =>
      have e : ∀ (c : UInt8) (z : Bytes), Hex.hexEncode (c :: z) =
          Hex.hexChar (c.toNat / 16) :: Hex.hexChar (c.toNat % 16) :: Hex.hexEncode z := by
        intro c z; simp [Hex.hexEncode]
      have ha := a.toNat_lt
      have hb := b.toNat_lt
      rw [e, e]
      simp only [bytesCompare, ih]
      simp only [hexChar_lt _ _ (show a.toNat / 16 < 16 by omega) (show b.toNat / 16 < 16 by omega),
        hexChar_lt _ _ (show b.toNat / 16 < 16 by omega) (show a.toNat / 16 < 16 by omega),
        hexChar_lt _ _ (show a.toNat % 16 < 16 by omega) (show b.toNat % 16 < 16 by omega),
        hexChar_lt _ _ (show b.toNat % 16 < 16 by omega) (show a.toNat % 16 < 16 by omega),
        UInt8.lt_iff_toNat_lt]
      repeat' split
      all_goals omega

/-- The id of a boot node whose id string is lower-case hex. -/
def bootId (b : Boot) : Bytes := (Hex.hexDecode b.idString).1

/-- Lists of boot nodes with lower-case id strings, in strictly ascending order. -/
def BootInv (l : List Boot) : Prop :=
  (∀ b ∈ l, b.idString = Hex.hexEncode (bootId b)) ∧ (l.Pairwise fun a b => bytesCompare (bootId a) (bootId b) < 0)

theorem bootKey {b : Boot} (h : b.idString = Hex.hexEncode (bootId b)) (key : Bytes) :
    bytesCompare b.idString (Hex.hexEncode key) = bytesCompare (bootId b) key := by
  conv_lhs => rw [h]
  exact compare_hexEncode _ _

/-- Searching the list of boot nodes is searching the list of their ids. -/
theorem bootSearchDecoded_eq (l : List Boot) (node : Bytes) :
    bootSearchDecoded l node = lowerBound bytesCompare (l.map bootId) node := by
  unfold bootSearchDecoded lowerBound
  rw [List.length_map]
  congr 1
  funext i
  rw [List.getElem?_map]
  cases l[i]? <;> rfl

theorem bootSearch_eq {l : List Boot} (h : ∀ b ∈ l, b.idString = Hex.hexEncode (bootId b)) (node : Bytes) :
    bootSearch l (Hex.hexEncode node) = lowerBound bytesCompare (l.map bootId) node := by
  unfold bootSearch lowerBound
  rw [List.length_map]
  congr 1
  funext i
  rw [List.getElem?_map]
  cases hb : l[i]? with
  | none => rfl
  | some b =>
    simp only [Option.map_some]
    rw [bootKey (h b (List.mem_of_getElem? hb))]

theorem bootInv_sorted {l : List Boot} (h : BootInv l) : Sorted (l.map bootId) := by
  show List.Pairwise _ _
  rw [List.pairwise_map]
  exact h.2

theorem bootId_of {b : Boot} {id : Bytes} (h : b.idString = Hex.hexEncode id) : bootId b = id := by
  unfold bootId; rw [h, hexDecode_encode]

/-- C95 (partial: id strings in lower-case hex; see `C95_refuted`): adding a boot node keeps the list in order, adds the
node exactly if no node with its id is listed, and the flag says so. -/
theorem C95_add_partial (l : List Boot) (h : BootInv l) (b : Boot) (id : Bytes) (hb : b.idString = Hex.hexEncode id)
    (l' : List Boot) (flag : Bool) (ha : AddBoot l b l' flag) :
    BootInv l' ∧ (flag = true ↔ id ∉ l.map bootId) ∧
      ∀ x, x ∈ l' ↔ x ∈ l ∨ (x = b ∧ id ∉ l.map bootId) := by
  have hbid := bootId_of hb
  have hs := bootInv_sorted h
  have hfind : (l[bootSearch l b.idString]?).map Boot.idString = some b.idString ↔ id ∈ l.map bootId := by
    rw [← lowerBound_mem bytesCompare_lawful hs, hb, bootSearch_eq h.1, List.getElem?_map]
    cases hx : l[lowerBound bytesCompare (l.map bootId) id]? with
    | none => simp
    | some x =>
      have hxs := h.1 x (List.mem_of_getElem? hx)
      simp only [Option.map_some, Option.some.injEq]
      constructor
      · intro he
        exact bootId_of he
      · intro he
        rw [hxs, he]
  unfold AddBoot at ha
  split at ha
  · rename_i h0
    rw [List.length_eq_zero_iff] at h0
    subst h0
    obtain ⟨rfl, rfl⟩ := ha
    refine ⟨⟨?_, by simp⟩, by simp, by simp⟩
    intro x hx
    simp only [List.nil_append, List.mem_singleton] at hx
    subst hx
    rw [hbid, hb]
  · split at ha
    · rename_i hf
      rw [hfind] at hf
      obtain ⟨rfl, rfl⟩ := ha
      refine ⟨h, by simp [hf], fun x => by simp [hf]⟩
    · rename_i hf
      rw [hfind] at hf
      obtain ⟨hp, hsort, rfl⟩ := ha
      have hmem : ∀ x, x ∈ l' ↔ x ∈ l ∨ x = b := by
        intro x; rw [hp.mem_iff]; simp
      have hlow : ∀ x ∈ l', x.idString = Hex.hexEncode (bootId x) := by
        intro x hx
        rcases (hmem x).1 hx with hx | rfl
        · exact h.1 x hx
        · rw [hbid, hb]
      have hnd : (l'.map bootId).Nodup := by
        rw [(hp.map bootId).nodup_iff, List.map_append, List.nodup_append]
        refine ⟨hs.nodup bytesCompare_lawful, by simp, ?_⟩
        rintro a ha c hc rfl
        simp only [List.map_cons, List.map_nil, List.mem_singleton, hbid] at hc
        exact hf (hc ▸ ha)
      refine ⟨⟨hlow, ?_⟩, by simp [hf], fun x => by rw [hmem]; simp [hf]⟩
      have hle : (l'.map bootId).Pairwise fun a b => bytesCompare a b ≤ 0 := by
        rw [List.pairwise_map]
        refine List.Pairwise.imp_of_mem ?_ hsort
        intro a c ha hc hac
        rw [hlow a ha, hlow c hc, compare_hexEncode] at hac
        exact hac
      have := strictSorted_of bytesCompare_lawful hle hnd
      unfold StrictSorted at this
      rwa [List.pairwise_map] at this

/-- C95 (partial: id strings in lower-case hex, and a list that is not empty): removing a boot node keeps the list in
order and removes exactly the node with that id; the flag says whether there was one. -/
theorem C95_remove_partial (l : List Boot) (h : BootInv l) (node : Bytes) :
    BootInv (removeBoot l node).1 ∧ (l ≠ [] → ((removeBoot l node).2 = true ↔ node ∈ l.map bootId)) ∧
      ∀ x, x ∈ (removeBoot l node).1 ↔ x ∈ l ∧ bootId x ≠ node := by
  have hs := bootInv_sorted h
  have hk := lowerBound_mem bytesCompare_lawful hs node
  unfold removeBoot
  rw [bootSearchDecoded_eq]
  generalize lowerBound bytesCompare (l.map bootId) node = k at *
  split
  · rename_i h0
    rw [List.length_eq_zero_iff] at h0
    subst h0
    simp [BootInv]
  · have hfind : (l[k]?).map (fun b => (Hex.hexDecode b.idString).1) = some node ↔ node ∈ l.map bootId := by
      rw [← hk, List.getElem?_map]; rfl
    split
    · rename_i hf
      have hin := hfind.1 hf
      have hkn := hk.2 hin
      rw [List.getElem?_map, Option.map_eq_some_iff] at hkn
      obtain ⟨b, hb, hbn⟩ := hkn
      have hlt : k < l.length := by
        by_contra hc
        rw [List.getElem?_eq_none (by omega)] at hb; cases hb
      have hbk : l[k] = b := by
        rw [List.getElem?_eq_getElem hlt] at hb
        exact Option.some.inj hb
      have hdec : l = l.take k ++ b :: l.drop (k + 1) := by
        conv_lhs => rw [← List.take_append_drop k l]
        rw [List.drop_eq_getElem_cons hlt, hbk]
      have hsub : (l.take k ++ l.drop (k + 1)).Sublist l := by
        conv_rhs => rw [hdec]
        exact List.Sublist.append (List.Sublist.refl _) (List.sublist_cons_self _ _)
      have hp := h.2
      rw [hdec, List.pairwise_append, List.pairwise_cons] at hp
      refine ⟨⟨fun x hx => h.1 x (hsub.subset hx), List.Pairwise.sublist hsub h.2⟩, fun _ => by simp only [hin], fun x => ?_⟩
      conv_rhs => rw [hdec]
      simp only [List.mem_append, List.mem_cons]
      constructor
      · rintro (hx | hx)
        · refine ⟨Or.inl hx, ?_⟩
          intro he
          have := hp.2.2 x hx b (List.mem_cons_self ..)
          rw [he, hbn, bytesCompare_lawful.refl] at this
          omega
        · refine ⟨Or.inr (Or.inr hx), ?_⟩
          intro he
          have := hp.2.1.1 x hx
          rw [he, hbn, bytesCompare_lawful.refl] at this
          omega
      · rintro ⟨hx | rfl | hx, hne⟩
        · exact Or.inl hx
        · exact absurd hbn hne
        · exact Or.inr hx
    · rename_i hf
      have hni := hfind.not.1 hf
      refine ⟨h, fun _ => by simp only [hni]; simp, fun x => ?_⟩
      constructor
      · intro hx
        refine ⟨hx, fun he => hni ?_⟩
        rw [← he]
        exact List.mem_map_of_mem hx
      · exact And.left

/-- C95 refuted: the list built by two calls of `AddBootNode` with id strings "0B" and "0a" is in string order but not in
the order of the ids, and removing the node 0x0b fails though it is listed. -/
theorem C95_refuted : ∃ (l : List Boot), AddBoot [⟨[48, 97], 1⟩] ⟨[48, 66], 2⟩ l true ∧ ([11] : Bytes) ∈ l.map bootId ∧
    removeBoot l [11] = (l, false) := by
  refine ⟨[⟨[48, 66], 2⟩, ⟨[48, 97], 1⟩], ?_, by decide +kernel, by decide +kernel⟩
  unfold AddBoot
  rw [if_neg (by decide), if_neg (by decide +kernel)]
  exact ⟨by decide, by decide, rfl⟩

/-- C95 refuted: the same node in upper and in lower case is listed twice. -/
theorem C95_duplicate_refuted : ∃ (l : List Boot), AddBoot [⟨[48, 97], 1⟩] ⟨[48, 65], 2⟩ l true ∧
    l.map bootId = [[10], [10]] := by
  refine ⟨[⟨[48, 65], 2⟩, ⟨[48, 97], 1⟩], ?_, by decide +kernel⟩
  unfold AddBoot
  rw [if_neg (by decide), if_neg (by decide +kernel)]
  exact ⟨by decide, by decide, rfl⟩

example : removeBoot [⟨[48, 97], 1⟩, ⟨[48, 98], 2⟩] [11] = ([⟨[48, 97], 1⟩], true) := by decide +kernel

end Verif.Nodes

import Verif.Nodes.Model
import Verif.Hex.Props

/-!
# Properties C63–C67, C89–C91, C94, C95: node id lists, node id sets, chain information
-/

namespace Verif.Nodes
open Verif

/-! ## Maps used as sets -/

theorem setAdd_nodup {m : List Bytes} (h : m.Nodup) (k : Bytes) : (setAdd m k).Nodup := by
  unfold setAdd
  split
  · exact h
  · rename_i hk
    rw [List.nodup_append]
    refine ⟨h, by simp, ?_⟩
    rintro a ha b hb rfl
    simp only [List.mem_singleton] at hb
    exact hk (hb ▸ ha)

theorem mem_setAdd (m : List Bytes) (k x : Bytes) : x ∈ setAdd m k ↔ x ∈ m ∨ x = k := by
  unfold setAdd
  split
  · rename_i hk
    constructor
    · exact Or.inl
    · rintro (h | rfl)
      · exact h
      · exact hk
  · simp

theorem setAddAll_spec (l : List Bytes) : ∀ m : List Bytes, m.Nodup →
    (setAddAll m l).Nodup ∧ ∀ x, x ∈ setAddAll m l ↔ x ∈ m ∨ x ∈ l := by
  unfold setAddAll
  induction l with
  | nil => intro m h; simp [h]
  | cons a l ih =>
    intro m h
    obtain ⟨h1, h2⟩ := ih (setAdd m a) (setAdd_nodup h a)
    refine ⟨h1, fun x => ?_⟩
    rw [List.foldl_cons, h2, mem_setAdd]
    simp [or_assoc]

theorem setDelAll_spec (l : List Bytes) : ∀ m : List Bytes, m.Nodup →
    (l.foldl setDel m).Nodup ∧ ∀ x, x ∈ l.foldl setDel m ↔ x ∈ m ∧ x ∉ l := by
  induction l with
  | nil => intro m h; simp [h]
  | cons a l ih =>
    intro m h
    obtain ⟨h1, h2⟩ := ih (setDel m a) (h.filter _)
    refine ⟨h1, fun x => ?_⟩
    rw [List.foldl_cons, h2]
    simp only [setDel, List.mem_filter, decide_eq_true_eq, List.mem_cons, not_or]
    tauto

/-! ## C64 union and removal -/

/-- C64: `Union` lists the members of either list, each once, whatever order the map is visited in. -/
theorem C64_union (order : List Bytes → List Bytes) (ho : ∀ l, (order l).Perm l) (ns os : List Bytes) :
    (union order ns os).Nodup ∧ ∀ x, x ∈ union order ns os ↔ x ∈ ns ∨ x ∈ os := by
  obtain ⟨h1, h2⟩ := setAddAll_spec ns [] List.nodup_nil
  obtain ⟨h3, h4⟩ := setAddAll_spec os (setAddAll [] ns) h1
  have hm : ∀ x, x ∈ setAddAll (setAddAll [] ns) os ↔ x ∈ ns ∨ x ∈ os := by
    intro x; rw [h4, h2]; simp
  unfold union
  split
  · rename_i h
    rw [List.length_eq_zero_iff] at h
    refine ⟨List.nodup_nil, fun x => ?_⟩
    rw [← hm, h]
  · refine ⟨(ho _).nodup_iff.2 h3, fun x => ?_⟩
    rw [(ho _).mem_iff, hm]

/-- C64: `Remove` lists the members of the first list that are not in the second, each once. -/
theorem C64_remove (order : List Bytes → List Bytes) (ho : ∀ l, (order l).Perm l) (ns os : List Bytes) :
    (remove order ns os).Nodup ∧ ∀ x, x ∈ remove order ns os ↔ x ∈ ns ∧ x ∉ os := by
  obtain ⟨h1, h2⟩ := setAddAll_spec ns [] List.nodup_nil
  obtain ⟨h3, h4⟩ := setDelAll_spec os (setAddAll [] ns) h1
  have hm : ∀ x, x ∈ os.foldl setDel (setAddAll [] ns) ↔ x ∈ ns ∧ x ∉ os := by
    intro x; rw [h4, h2]; simp
  unfold remove
  split
  · rename_i h
    rw [List.length_eq_zero_iff] at h
    subst h
    simp
  · split
    · rename_i h
      rw [List.length_eq_zero_iff] at h
      refine ⟨List.nodup_nil, fun x => ?_⟩
      rw [← hm, h]
    · refine ⟨(ho _).nodup_iff.2 h3, fun x => ?_⟩
      rw [(ho _).mem_iff, hm]

theorem contains_iff (l : List Bytes) (x : Bytes) : contains l x = true ↔ x ∈ l := by
  induction l with
  | nil => simp [contains]
  | cons a l ih =>
    rw [contains]
    split
    · rename_i h; simp [eq_of_beq h]
    · rename_i h
      rw [ih, List.mem_cons]
      constructor
      · exact Or.inr
      · rintro (rfl | h')
        · simp at h
        · exact h'

/-- C64: `Contains` is membership. -/
theorem C64_contains (l : List Bytes) (x : Bytes) : contains l x = true ↔ x ∈ l := contains_iff l x

/-- C64: `Equal` is equality of the lists. -/
theorem C64_equal (a b : List Bytes) : idsEqual a b = true ↔ a = b := by
  have loop : ∀ a b : List Bytes, a.length = b.length → (equalLoop a b = true ↔ a = b) := by
    intro a
    induction a with
    | nil => intro b h; cases b with
      | nil => simp [equalLoop]
      | cons => simp at h
    | cons x a ih =>
      intro b h
      cases b with
      | nil => simp at h
      | cons y b =>
        rw [equalLoop]
        by_cases hxy : x = y
        · subst hxy
          simp only [bne_self_eq_false, Bool.false_eq_true, if_false, List.cons.injEq, true_and]
          exact ih b (by simpa using h)
        · have : (x != y) = true := by simpa using hxy
          simp [this, hxy]
  unfold idsEqual
  split
  · rename_i h
    rw [List.length_eq_zero_iff, List.length_eq_zero_iff] at h
    simp [h.1, h.2]
  · split
    · rename_i h
      simp only [Bool.false_eq_true, false_iff]
      intro he
      exact h (by rw [he])
    · rename_i h
      exact loop a b (by simpa using h)

example : union List.reverse [[1], [2]] [[2], [3], [1]] = [[3], [2], [1]] ∧
    remove List.reverse [[1], [2], [2], [3]] [[1], [4]] = [[3], [2]] := by decide

/-! ## C65 data node lists -/

/-- One call on the data node list. -/
inductive DataOp where
  | add (x : Bytes)
  | remove (x : Bytes)

/-- The list after a sequence of calls. -/
def runData (l : List Bytes) : List DataOp → List Bytes
  | [] => l
  | .add x :: ops => runData (addData l x).1 ops
  | .remove x :: ops => runData (removeData l x).1 ops

/-- The set the calls describe. -/
def specData (s : Bytes → Prop) : List DataOp → (Bytes → Prop)
  | [] => s
  | .add x :: ops => specData (fun y => s y ∨ y = x) ops
  | .remove x :: ops => specData (fun y => s y ∧ y ≠ x) ops

abbrev Sorted (l : List Bytes) : Prop := StrictSorted bytesCompare l

theorem addData_spec {l : List Bytes} (hs : Sorted l) (x : Bytes) :
    Sorted (addData l x).1 ∧ (∀ y, y ∈ (addData l x).1 ↔ y ∈ l ∨ y = x) ∧ ((addData l x).2 = true ↔ x ∉ l) := by
  unfold addData
  split
  · rename_i h
    rw [List.length_eq_zero_iff] at h
    subst h
    simp [StrictSorted]
  · have hiff := lowerBound_mem bytesCompare_lawful hs x
    split
    · rename_i hx
      rw [hiff] at hx
      refine ⟨hs, fun y => ?_, by simp [hx]⟩
      constructor
      · exact Or.inl
      · rintro (h | rfl)
        · exact h
        · exact hx
    · rename_i hx
      rw [hiff] at hx
      refine ⟨?_, fun y => ?_, by simp [hx]⟩
      · apply strictSorted_sortCmp bytesCompare_lawful
        rw [List.nodup_append]
        refine ⟨hs.nodup bytesCompare_lawful, by simp, ?_⟩
        rintro a ha b hb rfl
        simp only [List.mem_singleton] at hb
        exact hx (hb ▸ ha)
      · rw [mem_sortCmp]; simp

theorem removeData_eq {l : List Bytes} {x : Bytes} (h : l[lowerBound bytesCompare l x]? = some x) :
    removeData l x = (l.take (lowerBound bytesCompare l x) ++ l.drop (lowerBound bytesCompare l x + 1), true) := by
  unfold removeData
  generalize lowerBound bytesCompare l x = k at *
  have hk : k < l.length := by
    by_contra hc
    rw [List.getElem?_eq_none (by omega)] at h; cases h
  rw [if_neg (by omega), if_pos h]
  congr 1
  rw [goCopyAt_of_fits _ _ _ (by rw [goCopy_length]; simp; omega)]
  have h1 : (goCopy (List.replicate (l.length - 1) []) (l.take k)).take k = l.take k := by
    unfold goCopy
    rw [List.take_append_of_le_length (by simp; omega), List.take_take, List.take_take]
    congr 1
    simp
    omega
  have h2 : (goCopy (List.replicate (l.length - 1) ([] : Bytes)) (l.take k)).drop (k + (l.drop (k + 1)).length) = [] :=
    List.drop_eq_nil_of_le (by rw [goCopy_length]; simp; omega)
  rw [h1, h2, List.append_nil]

theorem removeData_spec {l : List Bytes} (hs : Sorted l) (x : Bytes) :
    Sorted (removeData l x).1 ∧ (∀ y, y ∈ (removeData l x).1 ↔ y ∈ l ∧ y ≠ x) ∧
      ((removeData l x).2 = true ↔ x ∈ l ∨ l = []) := by
  by_cases hl : l = []
  · subst hl
    simp [removeData, StrictSorted]
  · by_cases hx : x ∈ l
    · have hk := (lowerBound_mem bytesCompare_lawful hs x).2 hx
      rw [removeData_eq hk]
      generalize lowerBound bytesCompare l x = k at *
      have hlt : k < l.length := by
        by_contra hc
        rw [List.getElem?_eq_none (by omega)] at hk; cases hk
      have hxk : l[k] = x := by
        rw [List.getElem?_eq_getElem hlt] at hk
        exact Option.some.inj hk
      have hsub : (l.take k ++ l.drop (k + 1)).Sublist l := by
        conv_rhs => rw [← List.take_append_drop k l]
        refine List.Sublist.append (List.Sublist.refl _) ?_
        rw [List.drop_eq_getElem_cons hlt]
        exact List.sublist_cons_self _ _
      have hdec : l = l.take k ++ x :: l.drop (k + 1) := by
        conv_lhs => rw [← List.take_append_drop k l]
        rw [List.drop_eq_getElem_cons hlt, hxk]
      have hnd := hs.nodup bytesCompare_lawful
      rw [hdec, List.nodup_append, List.nodup_cons] at hnd
      refine ⟨List.Pairwise.sublist hsub hs, fun y => ?_, by simp [hx]⟩
      conv_rhs => rw [hdec]
      simp only [List.mem_append, List.mem_cons]
      constructor
      · rintro (h | h)
        · refine ⟨Or.inl h, ?_⟩
          rintro rfl
          exact hnd.2.2 y h y (List.mem_cons_self ..) rfl
        · refine ⟨Or.inr (Or.inr h), ?_⟩
          rintro rfl
          exact hnd.2.1.1 h
      · rintro ⟨h | h | h, hne⟩
        · exact Or.inl h
        · exact absurd h hne
        · exact Or.inr h
    · have hk : ¬ l[lowerBound bytesCompare l x]? = some x := fun h => hx ((lowerBound_mem bytesCompare_lawful hs x).1 h)
      have hlen : ¬ l.length = 0 := by rwa [List.length_eq_zero_iff]
      unfold removeData
      rw [if_neg hlen, if_neg hk]
      refine ⟨hs, fun y => ?_, by simp [hx, hl]⟩
      constructor
      · intro h; exact ⟨h, fun he => hx (he ▸ h)⟩
      · exact And.left

theorem hasData_iff {l : List Bytes} (hs : Sorted l) (x : Bytes) : hasData l x = true ↔ x ∈ l := by
  unfold hasData
  split
  · rename_i h
    rw [List.length_eq_zero_iff] at h
    simp [h]
  · rw [← lowerBound_mem bytesCompare_lawful hs]
    cases h : l[lowerBound bytesCompare l x]? with
    | none => simp
    | some y => simp [bytesCompare_lawful.eq]

/-- C65: over every sequence of calls from a sorted duplicate-free list, the list stays sorted and duplicate free and
holds exactly the nodes added and not removed since; `HasDataNode` answers membership. -/
theorem C65_history (l : List Bytes) (hs : Sorted l) (ops : List DataOp) :
    Sorted (runData l ops) ∧ (runData l ops).Nodup ∧
      (∀ y, y ∈ runData l ops ↔ specData (· ∈ l) ops y) ∧
      ∀ y, hasData (runData l ops) y = true ↔ specData (· ∈ l) ops y := by
  suffices h : Sorted (runData l ops) ∧ ∀ y, y ∈ runData l ops ↔ specData (· ∈ l) ops y from
    ⟨h.1, h.1.nodup bytesCompare_lawful, h.2, fun y => by rw [hasData_iff h.1, h.2]⟩
  induction ops generalizing l with
  | nil => exact ⟨hs, fun y => Iff.rfl⟩
  | cons op ops ih =>
    cases op with
    | add x =>
      obtain ⟨h1, h2, -⟩ := addData_spec hs x
      obtain ⟨h3, h4⟩ := ih _ h1
      refine ⟨h3, fun y => ?_⟩
      rw [runData, h4, specData, funext fun y => propext (h2 y)]
    | remove x =>
      obtain ⟨h1, h2, -⟩ := removeData_spec hs x
      obtain ⟨h3, h4⟩ := ih _ h1
      refine ⟨h3, fun y => ?_⟩
      rw [runData, h4, specData, funext fun y => propext (h2 y)]

/-- C65 (partial: removal from a non-empty list; see `C65_flag_refuted`): the flags say whether the set changed. -/
theorem C65_flags_partial (l : List Bytes) (hs : Sorted l) (x : Bytes) :
    ((addData l x).2 = true ↔ (addData l x).1 ≠ l) ∧
      (l ≠ [] → ((removeData l x).2 = true ↔ (removeData l x).1 ≠ l)) := by
  obtain ⟨-, a2, a3⟩ := addData_spec hs x
  obtain ⟨-, r2, r3⟩ := removeData_spec hs x
  constructor
  · rw [a3]
    constructor
    · intro hx he
      have := (a2 x).2 (Or.inr rfl)
      rw [he] at this
      exact hx this
    · intro hne hx
      apply hne
      have h1 : ¬ (addData l x).2 = true := fun h => a3.1 h hx
      unfold addData at h1 ⊢
      split
      · rename_i h0
        rw [if_pos h0] at h1; simp at h1
      · rename_i h0
        rw [if_neg h0] at h1
        split
        · rfl
        · rename_i h2
          rw [if_neg h2] at h1; simp at h1
  · intro hl
    rw [r3]
    simp only [hl, or_false]
    constructor
    · intro hx he
      have := (r2 x).1 (by rw [he]; exact hx)
      exact this.2 rfl
    · intro hne
      by_contra hx
      apply hne
      have h1 : ¬ (removeData l x).2 = true := fun h => by
        rcases r3.1 h with h | h
        · exact hx h
        · exact hl h
      have hlen : ¬ l.length = 0 := by rwa [List.length_eq_zero_iff]
      unfold removeData at h1 ⊢
      rw [if_neg hlen] at h1 ⊢
      split
      · rename_i h2
        rw [if_pos h2] at h1; simp at h1
      · rfl

/-- C65 refuted: removing from an empty list reports success. -/
theorem C65_flag_refuted : ∃ x : Bytes, removeData [] x = ([], true) := ⟨[1], rfl⟩

theorem indexLoop_spec (nid : Bytes) : ∀ (l : List Bytes) (k : Nat),
    (nid ∉ l ∧ indexLoop l nid k = -1) ∨ ∃ i : Nat, indexLoop l nid k = (k + i : Nat) ∧ l[i]? = some nid ∧ nid ∉ l.take i := by
  intro l
  induction l with
  | nil => intro k; left; simp [indexLoop]
  | cons x l ih =>
    intro k
    rw [indexLoop]
    by_cases h : bytesCompare nid x = 0
    · right
      rw [bytesCompare_lawful.eq] at h
      refine ⟨0, ?_, by simp [h], by simp⟩
      rw [if_pos ((bytesCompare_lawful.eq _ _).2 h)]
      simp
    · rw [if_neg h]
      have hne : nid ≠ x := fun he => h ((bytesCompare_lawful.eq _ _).2 he)
      rcases ih (k + 1) with ⟨h1, h2⟩ | ⟨i, h1, h2, h3⟩
      · left; exact ⟨by simp [hne, h1], h2⟩
      · right
        refine ⟨i + 1, ?_, by simpa using h2, by simp [hne, h3]⟩
        rw [h1]; congr 1; omega

/-- C65: `Index` is the position of the node in the list, -1 exactly for nodes that are not data nodes. -/
theorem C65_index (l : List Bytes) (nid : Bytes) :
    (nid ∉ l ∧ indexLoop l nid 0 = -1) ∨ ∃ i : Nat, indexLoop l nid 0 = i ∧ l[i]? = some nid ∧ nid ∉ l.take i := by
  have := indexLoop_spec nid l 0
  simpa using this

example : runData [] [.add [3], .add [1], .add [2], .add [3], .remove [1], .remove [9]] = [[2], [3]] ∧
    Sorted ([] : List Bytes) := by
  refine ⟨by decide +kernel, List.Pairwise.nil⟩

/-! ## C66 chain attributes -/

theorem attrLoop_spec (as : List Bytes) : ∀ l : List Bytes, Sorted l →
    Sorted (attrLoop l as) ∧ ∀ x, x ∈ attrLoop l as ↔ x ∈ l ∨ x ∈ as := by
  induction as with
  | nil => intro l h; simp [attrLoop, h]
  | cons a as ih =>
    intro l h
    rw [attrLoop]
    split
    · rename_i h0
      rw [List.length_eq_zero_iff] at h0
      subst h0
      obtain ⟨h1, h2⟩ := ih ([] ++ [a]) (by simp [StrictSorted])
      refine ⟨h1, fun x => ?_⟩
      rw [h2]
      simp
    · split
      · rename_i hc
        have hc : a ∉ l := by
          intro hm
          have := (contains_iff l a).2 hm
          simp [attrContains, this] at hc
        have hs : Sorted (sortCmp bytesCompare (l ++ [a])) := by
          apply strictSorted_sortCmp bytesCompare_lawful
          rw [List.nodup_append]
          refine ⟨h.nodup bytesCompare_lawful, by simp, ?_⟩
          rintro x hx y hy rfl
          simp only [List.mem_singleton] at hy
          exact hc (hy ▸ hx)
        obtain ⟨h1, h2⟩ := ih _ hs
        refine ⟨h1, fun x => ?_⟩
        rw [h2, mem_sortCmp]
        simp [or_assoc]
      · rename_i hc
        have hc : a ∈ l := by
          simp only [Bool.not_eq_true', Bool.not_eq_false] at hc
          exact (contains_iff l a).1 hc
        obtain ⟨h1, h2⟩ := ih _ (strictSorted_sortCmp bytesCompare_lawful (h.nodup bytesCompare_lawful))
        refine ⟨h1, fun x => ?_⟩
        rw [h2, mem_sortCmp]
        simp only [List.mem_cons]
        constructor
        · rintro (h | h)
          · exact Or.inl h
          · exact Or.inr (Or.inr h)
        · rintro (h | rfl | h)
          · exact Or.inl h
          · exact Or.inl hc
          · exact Or.inr h

/-- A call with an invalid attribute changes nothing (the receiver keeps its value on error). -/
def runAttrs (l : List Bytes) : List (List Bytes) → List Bytes
  | [] => l
  | c :: cs => match attrAdd l c with
    | .ok l' => runAttrs l' cs
    | _ => runAttrs l cs

/-- The three attribute names. -/
def ValidAttr (a : Bytes) : Prop := a = "POC".toUTF8.toList ∨ a = "REWARD".toUTF8.toList ∨ a = "NOGAS".toUTF8.toList

theorem attrValid_iff (a : Bytes) : attrValid a = true ↔ ValidAttr a := by
  unfold attrValid ValidAttr validAttrs
  rw [show "POC".toUTF8.toList = [80, 79, 67] by decide +kernel,
    show "REWARD".toUTF8.toList = [82, 69, 87, 65, 82, 68] by decide +kernel,
    show "NOGAS".toUTF8.toList = [78, 79, 71, 65, 83] by decide +kernel]
  simp

theorem attrAdd_ok_iff (l c : List Bytes) : (∀ a ∈ c, ValidAttr a) ↔ attrAdd l c = .ok (attrLoop l c) := by
  unfold attrAdd
  split
  · rename_i h
    simp only [reduceCtorEq, iff_false]
    intro hv
    rw [List.any_eq_true] at h
    obtain ⟨a, ha, hb⟩ := h
    have := (attrValid_iff a).2 (hv a ha)
    simp [this] at hb
  · rename_i h
    simp only [iff_true]
    intro a ha
    rw [← attrValid_iff]
    by_contra hc
    apply h
    rw [List.any_eq_true]
    exact ⟨a, ha, by simpa using hc⟩

theorem attrAdd_err (l c : List Bytes) (h : ¬ ∀ a ∈ c, ValidAttr a) : attrAdd l c = .err := by
  have h1 := (attrAdd_ok_iff l c).not.1 h
  unfold attrAdd at h1 ⊢
  split
  · rfl
  · rename_i h2
    rw [if_neg h2] at h1
    exact absurd rfl h1

/-- C66: a call fails exactly if one of its attributes is not valid. -/
theorem C66_error_iff (l c : List Bytes) : attrAdd l c = .err ↔ ∃ a ∈ c, ¬ ValidAttr a := by
  by_cases h : ∀ a ∈ c, ValidAttr a
  · rw [(attrAdd_ok_iff l c).1 h]
    simp only [reduceCtorEq, false_iff]
    rintro ⟨a, ha, hn⟩
    exact hn (h a ha)
  · rw [attrAdd_err l c h]
    simp only [true_iff]
    by_contra hc
    apply h
    intro a ha
    by_contra hn
    exact hc ⟨a, ha, hn⟩

/-- C66: after any sequence of calls on an empty list the list is sorted, duplicate free, and contains exactly the
attributes of the calls that succeeded; all of them are valid. -/
theorem C66_history (calls : List (List Bytes)) :
    Sorted (runAttrs [] calls) ∧ (runAttrs [] calls).Nodup ∧ (∀ a ∈ runAttrs [] calls, ValidAttr a) ∧
      ∀ a, a ∈ runAttrs [] calls ↔ ∃ c ∈ calls, (∀ b ∈ c, ValidAttr b) ∧ a ∈ c := by
  have key : ∀ (calls : List (List Bytes)) (l : List Bytes), Sorted l → Sorted (runAttrs l calls) ∧
      ∀ a, a ∈ runAttrs l calls ↔ a ∈ l ∨ ∃ c ∈ calls, (∀ b ∈ c, ValidAttr b) ∧ a ∈ c := by
    intro calls
    induction calls with
    | nil => intro l h; simp [runAttrs, h]
    | cons c cs ih =>
      intro l h
      rw [runAttrs]
      by_cases hv : ∀ a ∈ c, ValidAttr a
      · rw [(attrAdd_ok_iff l c).1 hv]
        obtain ⟨h1, h2⟩ := attrLoop_spec c l h
        obtain ⟨h3, h4⟩ := ih _ h1
        refine ⟨h3, fun a => ?_⟩
        rw [h4, h2]
        simp only [List.mem_cons, exists_eq_or_imp]
        tauto
      · rw [attrAdd_err l c hv]
        obtain ⟨h3, h4⟩ := ih l h
        refine ⟨h3, fun a => ?_⟩
        rw [h4]
        simp only [List.mem_cons, exists_eq_or_imp]
        tauto
  obtain ⟨h1, h2⟩ := key calls [] List.Pairwise.nil
  refine ⟨h1, h1.nodup bytesCompare_lawful, ?_, fun a => by simpa using h2 a⟩
  intro a ha
  rw [h2] at ha
  rcases ha with h | ⟨c, -, h, hm⟩
  · simp at h
  · exact h a hm

/-- C66: going through a map and back gives the sorted set of the attributes, whatever order the map is visited in. -/
theorem C66_map_roundtrip (order : List Bytes → List Bytes) (ho : ∀ l, (order l).Perm l) (l : List Bytes) :
    Sorted (attrFromMap order (attrToMap l)) ∧ (∀ a, a ∈ attrFromMap order (attrToMap l) ↔ a ∈ l) ∧
      (Sorted l → attrFromMap order (attrToMap l) = l) := by
  obtain ⟨h1, h2⟩ := setAddAll_spec l [] List.nodup_nil
  have key : Sorted (attrFromMap order (attrToMap l)) ∧ ∀ a, a ∈ attrFromMap order (attrToMap l) ↔ a ∈ l := by
    unfold attrFromMap attrToMap
    split
    · rename_i h
      rw [List.length_eq_zero_iff] at h
      refine ⟨List.Pairwise.nil, fun a => ?_⟩
      have := h2 a
      rw [h] at this
      simpa using this
    · have hn : (order (setAddAll [] l)).Nodup := (ho _).nodup_iff.2 h1
      have hm : ∀ a, a ∈ order (setAddAll [] l) ↔ a ∈ l := by
        intro a; rw [(ho _).mem_iff, h2]; simp
      split
      · refine ⟨strictSorted_sortCmp bytesCompare_lawful hn, fun a => ?_⟩
        rw [mem_sortCmp, hm]
      · rename_i hlen
        refine ⟨?_, hm⟩
        generalize order (setAddAll [] l) = r at *
        match r, hlen with
        | [], _ => exact List.Pairwise.nil
        | [x], _ => simp [StrictSorted]
        | _ :: _ :: _, hlen => simp at hlen
  refine ⟨key.1, key.2, fun hs => ?_⟩
  exact key.1.ext bytesCompare_lawful hs key.2

example : runAttrs [] [[[82, 69, 87, 65, 82, 68]], [[80, 79, 67], [1]], [[80, 79, 67], [82, 69, 87, 65, 82, 68]]] =
    [[80, 79, 67], [82, 69, 87, 65, 82, 68]] := by decide +kernel

/-! ## C67 chain structures -/

/-- C67 (partial: the main chain with a parent, and a parentless chain in stand-alone mode, are built although they are
not valid; see `C67_refuted`): in all other cases a structure that is built is valid. -/
theorem C67_valid_partial (sa : Bool) (id parent : UInt32) (cs : ChainStruct)
    (h : newChainStruct sa id parent = .ok cs) :
    cs.validate = .ok () ↔ ¬ (id = 0 ∧ parent ≠ Num.nilChainID) ∧ ¬ (id ≠ 0 ∧ parent = Num.nilChainID) := by
  unfold newChainStruct at h
  split at h
  · cases h
  · split at h
    · rename_i hp
      split at h
      · rename_i hid
        simp only [Res.ok.injEq] at h
        subst h
        simp [ChainStruct.validate, hid, hp]
      · rename_i hid
        split at h
        · simp only [Res.ok.injEq] at h
          subst h
          simp [ChainStruct.validate, hid, hp]
        · cases h
    · rename_i hp
      split at h
      · rename_i hp0
        simp only [Res.ok.injEq] at h
        subst h
        by_cases hid : id = 0 <;> simp [ChainStruct.validate, hid, hp0, show ¬ (0 : UInt32) = Num.nilChainID by decide]
      · rename_i hp0
        simp only [Res.ok.injEq] at h
        subst h
        by_cases hid : id = 0 <;> simp [ChainStruct.validate, hid, hp0, hp]

/-- C67: outside stand-alone mode, everything built for a chain other than the main chain is valid, and so is the main
chain without parent. -/
theorem C67_normal_mode (id parent : UInt32) (cs : ChainStruct) (h : newChainStruct false id parent = .ok cs)
    (hm : id ≠ 0 ∨ parent = Num.nilChainID) : cs.validate = .ok () := by
  rw [C67_valid_partial false id parent cs h]
  refine ⟨?_, ?_⟩
  · rintro ⟨h1, h2⟩
    rcases hm with h | h
    · exact h h1
    · exact h2 h
  · rintro ⟨h1, h2⟩
    unfold newChainStruct at h
    split at h
    · cases h
    · simp at h

/-- C67: every valid structure is built from its own id and parent. -/
theorem C67_complete (cs : ChainStruct) (hid : cs.id ≠ Num.nilChainID) (h : cs.validate = .ok ()) (sa : Bool) :
    newChainStruct sa cs.id cs.parent = .ok cs := by
  obtain ⟨id, parent, mode⟩ := cs
  simp only at hid h
  unfold newChainStruct
  rw [if_neg hid]
  cases mode <;> simp only [ChainStruct.validate] at h
  · split at h
    · cases h
    · rename_i hc
      rw [not_or, not_not, not_not] at hc
      rw [if_pos hc.2, if_pos hc.1]
  · split at h
    · cases h
    · rename_i hc
      split at h
      · cases h
      · rename_i hp
        rw [not_or] at hc
        rw [if_neg hc.2, if_pos (not_not.1 hp)]
  · split at h
    · cases h
    · rename_i hc
      split at h
      · cases h
      · rename_i hp
        rw [not_or] at hc
        rw [if_neg hc.2, if_neg hp]
  · cases h

/-- C67 refuted: the main chain as its own child, as a child of another chain, and a parentless chain in stand-alone
mode. -/
theorem C67_refuted : (∃ cs, newChainStruct false 0 0 = .ok cs ∧ cs.validate = .err) ∧
    (∃ cs, newChainStruct false 0 5 = .ok cs ∧ cs.validate = .err) ∧
    (∃ cs, newChainStruct true 7 Num.nilChainID = .ok cs ∧ cs.validate = .err) :=
  ⟨⟨_, rfl, by decide⟩, ⟨_, rfl, by decide⟩, ⟨_, rfl, by decide⟩⟩

example : ∃ cs, newChainStruct false 103 3 = .ok cs ∧ cs.mode = .shard ∧ cs.validate = .ok () :=
  ⟨⟨103, 3, .shard⟩, by decide, rfl, by decide⟩

/-! ## C89 byte slices to node ids -/

theorem goCopy64 {b : Bytes} (h : b.length = 64) : goCopy (List.replicate 64 (0 : UInt8)) b = b := by
  unfold goCopy
  rw [List.length_replicate, h, List.drop_eq_nil_of_le (by simp), List.append_nil, List.take_of_length_le (by omega)]

theorem toIdsLoop_spec (bs : List Bytes) : ∀ seen r, toIdsLoop seen bs = .ok r ↔
    r = seen ++ bs ∧ (∀ b ∈ bs, b.length = 64) ∧ bs.Nodup ∧ ∀ b ∈ bs, b ∉ seen := by
  induction bs with
  | nil => intro seen r; simp [toIdsLoop, eq_comm]
  | cons b bs ih =>
    intro seen r
    rw [toIdsLoop]
    by_cases hl : b.length = 64
    · rw [if_neg (by simpa using hl), goCopy64 hl]
      by_cases hs : b ∈ seen
      · rw [if_pos hs]
        simp [hs]
      · rw [if_neg hs, ih]
        simp only [List.append_assoc, List.singleton_append, List.mem_cons, forall_eq_or_imp, List.nodup_cons, hl, hs,
          List.mem_append, List.not_mem_nil, or_false, true_and, not_or, not_false_eq_true]
        constructor
        · rintro ⟨h1, h2, h3, h4⟩
          exact ⟨h1, h2, ⟨fun hb => (h4 b hb).2 rfl, h3⟩, fun x hx => (h4 x hx).1⟩
        · rintro ⟨h1, h2, ⟨h3, h4⟩, h5⟩
          exact ⟨h1, h2, h4, fun x hx => ⟨h5 x hx, fun he => h3 (he ▸ hx)⟩⟩
    · rw [if_pos (by simpa using hl)]
      simp [hl]

/-- C89: the conversion succeeds exactly on lists of distinct 64-byte strings, and then it is the identity. -/
theorem C89_toNodeIDs (bss r : List Bytes) :
    byteSlicesToNodeIDs bss = .ok r ↔ r = bss ∧ (∀ b ∈ bss, b.length = 64) ∧ bss.Nodup := by
  unfold byteSlicesToNodeIDs
  split
  · rename_i h
    rw [List.length_eq_zero_iff] at h
    subst h
    simp [eq_comm]
  · rw [toIdsLoop_spec]
    simp

/-- C89: it never panics. -/
theorem C89_no_panic (bss : List Bytes) : byteSlicesToNodeIDs bss ≠ .panic := by
  have : ∀ (bs seen : List Bytes), toIdsLoop seen bs ≠ .panic := by
    intro bs
    induction bs with
    | nil => intro seen; simp [toIdsLoop]
    | cons b bs ih =>
      intro seen
      rw [toIdsLoop]
      repeat' split
      all_goals first | simp; done | exact ih _
  unfold byteSlicesToNodeIDs
  split
  · simp
  · exact this _ _

example : byteSlicesToNodeIDs [List.replicate 64 1, List.replicate 64 2] =
      .ok [List.replicate 64 1, List.replicate 64 2] ∧
    byteSlicesToNodeIDs [List.replicate 64 1, List.replicate 64 1] = .err := by decide +kernel

/-! ## C90 comparisons of possibly nil things -/

/-- C90: `NodeID.Compare` is a total order in which nil is smallest. -/
theorem C90_nodeId : LawfulCmp nodeIdCompare ∧ ∀ x, nodeIdCompare none (some x) < 0 := by
  refine ⟨⟨?_, ?_, ?_⟩, fun x => by simp [nodeIdCompare]⟩
  · intro a b
    cases a <;> cases b <;> simp [nodeIdCompare, bytesCompare_lawful.eq]
  · intro a b
    cases a <;> cases b <;> simp [nodeIdCompare, bytesCompare_lawful.flip]
  · intro a b c
    cases a <;> cases b <;> cases c <;> simp [nodeIdCompare]
    exact bytesCompare_lawful.trans _ _ _

/-- C90: a comparison completed by `PointerCompare` is a total order in which nil is smallest, if the comparison of the
objects is a total order. -/
theorem C90_pointer {α : Type} {cmp : α → α → Int} (L : LawfulCmp cmp)
    (full : Option α → Option α → Int)
    (hfull : ∀ a b, (pointerCompare a b).2 = false → full a b = (pointerCompare a b).1)
    (hobj : ∀ a b, (pointerCompare (some a) (some b)).2 = true → full (some a) (some b) = cmp a b) :
    LawfulCmp full ∧ ∀ x, full none (some x) < 0 := by
  have e1 : full none none = 0 := hfull _ _ rfl
  have e2 : ∀ x, full none (some x) = -1 := fun x => hfull _ _ rfl
  have e3 : ∀ x, full (some x) none = 1 := fun x => hfull _ _ rfl
  have e4 : ∀ x y, full (some x) (some y) = cmp x y := fun x y => hobj _ _ rfl
  refine ⟨⟨?_, ?_, ?_⟩, fun x => by rw [e2]; decide⟩
  · intro a b
    cases a <;> cases b <;> simp [e1, e2, e3, e4, L.eq]
  · intro a b
    cases a <;> cases b <;> simp [e1, e2, e3, e4, L.flip]
  · intro a b c
    cases a <;> cases b <;> cases c <;> simp [e1, e2, e3, e4]
    exact L.trans _ _ _

theorem compareLoop_eq {α : Type} {cmp : α → α → Int} (L : LawfulCmp cmp) : ∀ a b : List α, a.length = b.length →
    (compareLoop cmp a b = 0 ↔ a = b) := by
  intro a
  induction a with
  | nil => intro b h; cases b <;> simp_all [compareLoop]
  | cons x a ih =>
    intro b h
    cases b with
    | nil => simp at h
    | cons y b =>
      rw [compareLoop]
      by_cases hc : cmp x y = 0
      · rw [if_neg (by simpa using hc), ih b (by simpa using h)]
        rw [L.eq] at hc
        simp [hc]
      · rw [if_pos hc]
        have : x ≠ y := fun he => hc ((L.eq _ _).2 he)
        simp [hc, this]

theorem compareLoop_flip {α : Type} {cmp : α → α → Int} (L : LawfulCmp cmp) : ∀ a b : List α, a.length = b.length →
    (compareLoop cmp a b < 0 ↔ 0 < compareLoop cmp b a) := by
  intro a
  induction a with
  | nil => intro b h; cases b <;> simp_all [compareLoop]
  | cons x a ih =>
    intro b h
    cases b with
    | nil => simp at h
    | cons y b =>
      rw [compareLoop, compareLoop]
      by_cases hc : cmp x y = 0
      · have he := (L.eq x y).1 hc
        subst he
        rw [if_neg (by simpa using hc), if_neg (by simpa using hc), ih b (by simpa using h)]
      · have hc' : cmp y x ≠ 0 := fun h0 => hc (by rw [L.eq] at h0 ⊢; exact h0.symm)
        rw [if_pos hc, if_pos hc', L.flip]

theorem compareLoop_trans {α : Type} {cmp : α → α → Int} (L : LawfulCmp cmp) : ∀ a b c : List α, a.length = b.length →
    b.length = c.length → compareLoop cmp a b < 0 → compareLoop cmp b c < 0 → compareLoop cmp a c < 0 := by
  intro a
  induction a with
  | nil => intro b c h1 h2; cases b <;> cases c <;> simp_all [compareLoop]
  | cons x a ih =>
    intro b c h1 h2
    cases b with
    | nil => simp at h1
    | cons y b =>
      cases c with
      | nil => simp at h2
      | cons z c =>
        rw [compareLoop, compareLoop, compareLoop]
        by_cases hxy : cmp x y = 0
        · have he := (L.eq x y).1 hxy
          subst he
          rw [if_neg (by simpa using hxy)]
          by_cases hyz : cmp x z = 0
          · rw [if_neg (by simpa using hyz), if_neg (by simpa using hyz)]
            exact ih b c (by simpa using h1) (by simpa using h2)
          · rw [if_pos hyz, if_pos hyz]
            exact fun _ h => h
        · rw [if_pos hxy]
          by_cases hyz : cmp y z = 0
          · have he := (L.eq y z).1 hyz
            subst he
            rw [if_pos hxy]
            exact fun h _ => h
          · rw [if_pos hyz]
            intro h1 h2
            have := L.trans x y z h1 h2
            rw [if_pos (by omega)]
            exact this

/-- C90: with a total order on the elements, `CompareSlices` is a total order on slices (nil and empty slices are
different); nil comes first, then shorter slices, then the first difference decides. -/
theorem C90_slices {α : Type} {cmp : α → α → Int} (L : LawfulCmp cmp) :
    LawfulCmp (compareSlices cmp) ∧ (∀ x, compareSlices cmp none (some x) < 0) ∧
      (∀ x y : List α, x.length < y.length → compareSlices cmp (some x) (some y) < 0) ∧
      ∀ (p xs ys : List α) (x y : α), xs.length = ys.length → x ≠ y →
        compareSlices cmp (some (p ++ x :: xs)) (some (p ++ y :: ys)) = cmp x y := by
  have hlen : ∀ a b : List α, compareSlices cmp (some a) (some b) =
      if a.length = b.length then compareLoop cmp a b else if a.length < b.length then -1 else 1 := by
    intro a b
    rw [compareSlices]
    split
    · rename_i h
      rw [if_pos (by omega), List.length_eq_zero_iff.1 h.1, List.length_eq_zero_iff.1 h.2]
      rfl
    · rfl
  refine ⟨⟨?_, ?_, ?_⟩, fun x => by simp [compareSlices], ?_, ?_⟩
  · intro a b
    cases a with
    | none => cases b <;> simp [compareSlices]
    | some a =>
      cases b with
      | none => simp [compareSlices]
      | some b =>
        rw [hlen, Option.some.injEq]
        split
        · exact compareLoop_eq L a b ‹_›
        · rename_i h
          have : a ≠ b := fun he => h (by rw [he])
          split <;> simp [this]
  · intro a b
    cases a with
    | none => cases b <;> simp [compareSlices]
    | some a =>
      cases b with
      | none => simp [compareSlices]
      | some b =>
        rw [hlen, hlen]
        by_cases h : a.length = b.length
        · rw [if_pos h, if_pos h.symm]
          exact compareLoop_flip L a b h
        · rw [if_neg h, if_neg (show ¬ b.length = a.length from fun he => h he.symm)]
          by_cases h2 : a.length < b.length
          · rw [if_pos h2, if_neg (by omega)]; simp
          · rw [if_neg h2, if_pos (by omega)]; simp
  · intro a b c
    cases a with
    | none => cases b <;> cases c <;> simp [compareSlices]
    | some a =>
      cases b with
      | none => simp [compareSlices]
      | some b =>
        cases c with
        | none => simp [compareSlices]
        | some c =>
          rw [hlen, hlen, hlen]
          intro h1 h2
          by_cases hab : a.length = b.length
          · rw [if_pos hab] at h1
            by_cases hbc : b.length = c.length
            · rw [if_pos hbc] at h2
              rw [if_pos (by omega)]
              exact compareLoop_trans L a b c hab hbc h1 h2
            · rw [if_neg hbc] at h2
              rw [if_neg (by omega)]
              split at h2
              · rw [if_pos (by omega)]; decide
              · omega
          · rw [if_neg hab] at h1
            split at h1
            · by_cases hbc : b.length = c.length
              · rw [if_neg (by omega), if_pos (by omega)]; decide
              · rw [if_neg hbc] at h2
                split at h2
                · rw [if_neg (by omega), if_pos (by omega)]; decide
                · omega
            · omega
  · intro x y h
    rw [hlen, if_neg (by omega), if_pos h]
    decide
  · intro p xs ys x y h hne
    rw [hlen, if_pos (by simp [h])]
    induction p with
    | nil =>
      rw [List.nil_append, List.nil_append, compareLoop, if_pos (fun h0 => hne ((L.eq _ _).1 h0))]
    | cons a p ih =>
      rw [List.cons_append, List.cons_append, compareLoop, if_neg (by simp [L.refl])]
      exact ih

example : compareSlices bytesCompare (some [[1], [2]]) (some [[1], [3]]) = -1 ∧
    compareSlices bytesCompare (some []) none = 1 := by decide

/-! ## C91 auditors -/

/-- C91: `GetAuditorIds` lists the union of genesis data nodes, data nodes and auditors, each once, in order. -/
theorem C91_auditors (order : List Bytes → List Bytes) (ho : ∀ l, (order l).Perm l) (g d a : List Bytes) :
    Sorted (auditorIds order g d a) ∧ ∀ x, x ∈ auditorIds order g d a ↔ x ∈ g ∨ x ∈ d ∨ x ∈ a := by
  obtain ⟨h1, h2⟩ := setAddAll_spec g [] List.nodup_nil
  obtain ⟨h3, h4⟩ := setAddAll_spec d _ h1
  obtain ⟨h5, h6⟩ := setAddAll_spec a _ h3
  have hn : (order (setAddAll (setAddAll (setAddAll [] g) d) a)).Nodup := (ho _).nodup_iff.2 h5
  have hm : ∀ x, x ∈ order (setAddAll (setAddAll (setAddAll [] g) d) a) ↔ x ∈ g ∨ x ∈ d ∨ x ∈ a := by
    intro x; rw [(ho _).mem_iff, h6, h4, h2]; simp [or_assoc]
  unfold auditorIds
  split
  · refine ⟨strictSorted_sortCmp bytesCompare_lawful hn, fun x => ?_⟩
    rw [mem_sortCmp, hm]
  · rename_i hlen
    refine ⟨?_, hm⟩
    generalize order (setAddAll (setAddAll (setAddAll [] g) d) a) = r at *
    match r, hlen with
    | [], _ => exact List.Pairwise.nil
    | [x], _ => simp [StrictSorted]
    | _ :: _ :: _, hlen => simp at hlen

/-- C91: hence the order in which maps are visited does not show. -/
theorem C91_deterministic (o1 o2 : List Bytes → List Bytes) (h1 : ∀ l, (o1 l).Perm l) (h2 : ∀ l, (o2 l).Perm l)
    (g d a : List Bytes) : auditorIds o1 g d a = auditorIds o2 g d a := by
  obtain ⟨s1, m1⟩ := C91_auditors o1 h1 g d a
  obtain ⟨s2, m2⟩ := C91_auditors o2 h2 g d a
  exact s1.ext bytesCompare_lawful s2 fun x => by rw [m1, m2]

example : auditorIds id [[3], [1]] [[2], [3]] [[1]] = [[1], [2], [3]] := by decide +kernel

end Verif.Nodes

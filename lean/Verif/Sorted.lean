import Verif.Base
import Mathlib.Data.List.Sort
import Mathlib.Data.List.Dedup

/-!
# `sort.Sort` and `sort.Search` of Go's standard library, and three-way comparisons

`sort.Sort` is given by its documentation: it permutes the elements so that they are in order.  For a comparison that
returns zero on equal elements only, this determines the result (`sortCmp_unique`); the model uses insertion sort.
`sort.Search` is the binary search of the standard library.
-/

namespace Verif
open List

/-- A three-way comparison that is a strict total order. -/
structure LawfulCmp {α : Type} (cmp : α → α → Int) : Prop where
  eq : ∀ a b, cmp a b = 0 ↔ a = b
  flip : ∀ a b, cmp a b < 0 ↔ 0 < cmp b a
  trans : ∀ a b c, cmp a b < 0 → cmp b c < 0 → cmp a c < 0

namespace LawfulCmp
variable {α : Type} {cmp : α → α → Int} (L : LawfulCmp cmp)
include L

theorem refl (a : α) : cmp a a = 0 := (L.eq a a).2 rfl

theorem le_total (a b : α) : cmp a b ≤ 0 ∨ cmp b a ≤ 0 := by
  by_cases h : cmp a b ≤ 0
  · exact Or.inl h
  · right
    have := (L.flip b a).2 (by omega)
    omega

theorem le_antisymm {a b : α} (h1 : cmp a b ≤ 0) (h2 : cmp b a ≤ 0) : a = b := by
  rw [← L.eq]
  by_contra hne
  have := (L.flip a b).1 (by omega)
  omega

theorem le_trans {a b c : α} (h1 : cmp a b ≤ 0) (h2 : cmp b c ≤ 0) : cmp a c ≤ 0 := by
  by_cases e1 : cmp a b = 0
  · rw [L.eq] at e1; subst e1; exact h2
  · by_cases e2 : cmp b c = 0
    · rw [L.eq] at e2; subst e2; exact h1
    · have := L.trans a b c (by omega) (by omega)
      omega

theorem lt_of_le_ne {a b : α} (h : cmp a b ≤ 0) (hne : a ≠ b) : cmp a b < 0 := by
  have : cmp a b ≠ 0 := fun h0 => hne ((L.eq a b).1 h0)
  omega

theorem not_le {a b : α} : ¬ cmp a b ≤ 0 ↔ cmp b a < 0 := by
  rw [L.flip]; omega

end LawfulCmp

/-- `sort.Sort` with `Less(i, j)` given by `cmp < 0`. -/
def sortCmp {α : Type} (cmp : α → α → Int) (l : List α) : List α := l.insertionSort fun a b => cmp a b ≤ 0

section
variable {α : Type} {cmp : α → α → Int}

theorem sortCmp_perm (l : List α) : (sortCmp cmp l).Perm l := perm_insertionSort _ _

theorem mem_sortCmp {l : List α} {x : α} : x ∈ sortCmp cmp l ↔ x ∈ l := (sortCmp_perm l).mem_iff

theorem sortCmp_sorted (L : LawfulCmp cmp) (l : List α) : (sortCmp cmp l).Pairwise fun a b => cmp a b ≤ 0 := by
  have : Std.Total fun a b => cmp a b ≤ 0 := ⟨L.le_total⟩
  have : IsTrans α fun a b => cmp a b ≤ 0 := ⟨fun _ _ _ => L.le_trans⟩
  exact pairwise_insertionSort _ _

/-- Whatever algorithm is used, the sorted list is the same. -/
theorem sortCmp_unique (L : LawfulCmp cmp) {l r : List α} (hp : r.Perm l) (hs : r.Pairwise fun a b => cmp a b ≤ 0) :
    r = sortCmp cmp l := by
  apply List.Perm.eq_of_pairwise (le := fun a b => cmp a b ≤ 0) _ hs (sortCmp_sorted L l) (hp.trans (sortCmp_perm l).symm)
  intro a b _ _ h1 h2
  exact L.le_antisymm h1 h2

/-- Strictly ascending, hence without duplicates. -/
def StrictSorted (cmp : α → α → Int) (l : List α) : Prop := l.Pairwise fun a b => cmp a b < 0

theorem StrictSorted.nodup (L : LawfulCmp cmp) {l : List α} (h : StrictSorted cmp l) : l.Nodup := by
  refine List.Pairwise.imp ?_ h
  rintro a b hab rfl
  rw [L.refl] at hab
  omega

theorem strictSorted_of (L : LawfulCmp cmp) {l : List α} (hs : l.Pairwise fun a b => cmp a b ≤ 0) (hn : l.Nodup) :
    StrictSorted cmp l := by
  refine List.Pairwise.imp₂ (R := fun a b => cmp a b ≤ 0) (S := (· ≠ ·)) ?_ hs hn
  intro a b h1 h2
  exact L.lt_of_le_ne h1 h2

theorem strictSorted_sortCmp (L : LawfulCmp cmp) {l : List α} (hn : l.Nodup) : StrictSorted cmp (sortCmp cmp l) :=
  strictSorted_of L (sortCmp_sorted L l) ((sortCmp_perm l).nodup_iff.2 hn)

/-- A sorted set is determined by its members. -/
theorem StrictSorted.ext (L : LawfulCmp cmp) {l r : List α} (hl : StrictSorted cmp l) (hr : StrictSorted cmp r)
    (h : ∀ x, x ∈ l ↔ x ∈ r) : l = r := by
  have hp : l.Perm r := (List.perm_ext_iff_of_nodup (hl.nodup L) (hr.nodup L)).2 h
  apply List.Perm.eq_of_pairwise (le := fun a b => cmp a b ≤ 0) _ _ _ hp
  · intro a b _ _ h1 h2; exact L.le_antisymm h1 h2
  · exact hl.imp fun h => by omega
  · exact hr.imp fun h => by omega

end

/-! ### Binary search -/

/-- The loop of `sort.Search`. -/
def searchLoop (f : Nat → Bool) (i j : Nat) : Nat :=
  if i < j then
    if !f ((i + j) / 2) then searchLoop f ((i + j) / 2 + 1) j else searchLoop f i ((i + j) / 2)
  else i
termination_by j - i

/-- `sort.Search(n, f)`. -/
def search (n : Nat) (f : Nat → Bool) : Nat := searchLoop f 0 n

theorem searchLoop_spec (f : Nat → Bool) (n : Nat) : ∀ (k i j : Nat), j - i ≤ k → i ≤ j → j ≤ n →
    (∀ m, m < i → (0 < i → f (i - 1) = false)) → (j < n → f j = true) →
    i ≤ searchLoop f i j ∧ searchLoop f i j ≤ j ∧ (searchLoop f i j < n → f (searchLoop f i j) = true) ∧
      (0 < searchLoop f i j → f (searchLoop f i j - 1) = false) := by
  intro k
  induction k with
  | zero =>
    intro i j hk hij hj hlo hhi
    have : i = j := by omega
    subst this
    rw [searchLoop, if_neg (by omega)]
    exact ⟨Nat.le_refl _, Nat.le_refl _, hhi, fun h => hlo 0 h h⟩
  | succ k ih =>
    intro i j hk hij hj hlo hhi
    rw [searchLoop]
    by_cases hlt : i < j
    · rw [if_pos hlt]
      generalize hh : (i + j) / 2 = h
      have h1 : i ≤ h := by omega
      have h2 : h < j := by omega
      cases hf : f h with
      | false =>
        obtain ⟨a, b, c, d⟩ := ih (h + 1) j (by omega) (by omega) hj (fun _ _ _ => by simpa using hf) hhi
        simp only [Bool.not_false, if_true]
        exact ⟨by omega, b, c, d⟩
      | true =>
        obtain ⟨a, b, c, d⟩ := ih i h (by omega) h1 (by omega) hlo (fun _ => hf)
        simp only [Bool.not_true, Bool.false_eq_true, if_false]
        exact ⟨a, by omega, c, d⟩
    · rw [if_neg hlt]
      have : i = j := by omega
      subst this
      exact ⟨Nat.le_refl _, Nat.le_refl _, hhi, fun h => hlo 0 h h⟩

/-- For every predicate, the result is a border: false just before it, true at it. -/
theorem search_border (n : Nat) (f : Nat → Bool) : search n f ≤ n ∧ (search n f < n → f (search n f) = true) ∧
    (0 < search n f → f (search n f - 1) = false) := by
  obtain ⟨-, b, c, d⟩ := searchLoop_spec f n n 0 n (by omega) (by omega) (Nat.le_refl _) (by intro m hm; omega) (by omega)
  exact ⟨b, c, d⟩

/-- For a monotone predicate it is the first position where the predicate holds. -/
theorem search_monotone (n : Nat) (f : Nat → Bool) (hm : ∀ i j, i ≤ j → j < n → f i = true → f j = true) (i : Nat)
    (hi : i < n) : f i = true ↔ search n f ≤ i := by
  obtain ⟨a, b, c⟩ := search_border n f
  constructor
  · intro h
    by_contra hc
    have h1 := hm i (search n f - 1) (by omega) (by omega) h
    rw [c (by omega)] at h1
    cases h1
  · intro h
    exact hm _ i h hi (b (by omega))

/-- The position of the first element that is not below `x`. -/
def lowerBound {α : Type} (cmp : α → α → Int) (l : List α) (x : α) : Nat :=
  search l.length fun i => match l[i]? with
    | some y => decide (cmp y x ≥ 0)
    | none => true

section
variable {α : Type} {cmp : α → α → Int}

theorem lowerBound_spec (L : LawfulCmp cmp) {l : List α} (hs : l.Pairwise fun a b => cmp a b ≤ 0) (x : α) :
    lowerBound cmp l x ≤ l.length ∧ ∀ i y, l[i]? = some y → (cmp y x ≥ 0 ↔ lowerBound cmp l x ≤ i) := by
  constructor
  · exact (search_border _ _).1
  · intro i y hy
    have hi : i < l.length := by
      by_contra hc
      rw [List.getElem?_eq_none (by omega)] at hy
      cases hy
    have := search_monotone l.length (fun i => match l[i]? with | some y => decide (cmp y x ≥ 0) | none => true) ?_ i hi
    · simp only [hy, decide_eq_true_eq] at this
      exact this
    · intro i j hij hj hf
      have e1 : l[i]? = some l[i] := List.getElem?_eq_getElem (by omega)
      have e2 : l[j]? = some l[j] := List.getElem?_eq_getElem hj
      simp only [e1, e2, decide_eq_true_eq] at hf ⊢
      by_cases h : i = j
      · subst h; exact hf
      · have h1 := List.pairwise_iff_getElem.1 hs i j (by omega) hj (by omega)
        by_contra hc
        have h2 : cmp l[i] x ≤ 0 := L.le_trans h1 (by omega)
        have h3 := L.le_antisymm h2 ((L.flip x l[i]).not.2 (by omega) |> fun h => by
          have := (L.flip l[i] x).not.1 (by omega)
          omega)
        rw [h3] at h1
        have h4 := (L.flip l[j] x).1 (by omega)
        omega

/-- Binary search finds exactly the members. -/
theorem lowerBound_mem (L : LawfulCmp cmp) {l : List α} (hs : StrictSorted cmp l) (x : α) :
    l[lowerBound cmp l x]? = some x ↔ x ∈ l := by
  constructor
  · intro h; exact List.mem_of_getElem? h
  · intro h
    obtain ⟨i, hi, rfl⟩ := List.getElem_of_mem h
    obtain ⟨h1, h2⟩ := lowerBound_spec L (hs.imp fun h => by omega) l[i]
    have h3 := (h2 i l[i] (List.getElem?_eq_getElem hi)).1 (by rw [L.refl])
    have : lowerBound cmp l l[i] = i := by
      by_contra hne
      have hlt : lowerBound cmp l l[i] < i := by omega
      have h4 := (h2 (lowerBound cmp l l[i]) _ (List.getElem?_eq_getElem (by omega))).2 (Nat.le_refl _)
      have h5 := List.pairwise_iff_getElem.1 hs _ i (by omega) hi hlt
      omega
    rw [this]
    exact List.getElem?_eq_getElem hi

end

/-! ### Comparisons -/

/-- `bytes.Compare` (and `strings.Compare`). -/
def bytesCompare : Bytes → Bytes → Int
  | [], [] => 0
  | [], _ :: _ => -1
  | _ :: _, [] => 1
  | a :: as, b :: bs => if a < b then -1 else if b < a then 1 else bytesCompare as bs

theorem bytesCompare_lawful : LawfulCmp bytesCompare := by
  refine ⟨?_, ?_, ?_⟩
  · intro a
    induction a with
    | nil => intro b; cases b <;> simp [bytesCompare]
    | cons x a ih =>
      intro b
      cases b with
      | nil => simp [bytesCompare]
      | cons y b =>
        rw [bytesCompare]
        split
        · rename_i h
          simp only [List.cons.injEq]
          constructor
          · intro h0; omega
          · rintro ⟨rfl, -⟩; exact absurd h (UInt8.lt_irrefl _)
        · split
          · rename_i h
            simp only [List.cons.injEq]
            constructor
            · intro h0; omega
            · rintro ⟨rfl, -⟩; exact absurd h (UInt8.lt_irrefl _)
          · rename_i h1 h2
            have : x = y := by
              rw [UInt8.lt_iff_toNat_lt] at h1 h2
              apply UInt8.toNat_inj.1; omega
            rw [ih]; simp [this]
  · intro a
    induction a with
    | nil => intro b; cases b <;> simp [bytesCompare]
    | cons x a ih =>
      intro b
      cases b with
      | nil => simp [bytesCompare]
      | cons y b =>
        simp only [bytesCompare, UInt8.lt_iff_toNat_lt]
        by_cases h1 : x.toNat < y.toNat
        · have h2 : ¬ y.toNat < x.toNat := by omega
          simp [h1, h2]
        · by_cases h2 : y.toNat < x.toNat
          · simp [h1, h2]
          · simp [h1, h2, ih]
  · intro a
    induction a with
    | nil => intro b c h1 h2; cases b <;> cases c <;> simp_all [bytesCompare]
    | cons x a ih =>
      intro b c h1 h2
      cases b with
      | nil => simp [bytesCompare] at h1
      | cons y b =>
        cases c with
        | nil => simp [bytesCompare] at h2
        | cons z c =>
          simp only [bytesCompare, UInt8.lt_iff_toNat_lt] at h1 h2 ⊢
          by_cases a1 : x.toNat < y.toNat
          · by_cases b2 : z.toNat < y.toNat
            · have b1 : ¬ y.toNat < z.toNat := by omega
              rw [if_neg b1, if_pos b2] at h2; omega
            · rw [if_pos (by omega)]; omega
          · by_cases a2 : y.toNat < x.toNat
            · rw [if_neg a1, if_pos a2] at h1; omega
            · rw [if_neg a1, if_neg a2] at h1
              by_cases b1 : y.toNat < z.toNat
              · rw [if_pos (by omega)]; omega
              · by_cases b2 : z.toNat < y.toNat
                · rw [if_neg b1, if_pos b2] at h2; omega
                · rw [if_neg b1, if_neg b2] at h2
                  rw [if_neg (by omega), if_neg (by omega)]
                  exact ih b c h1 h2

end Verif

import Verif.HTree.Store
import Verif.Merkle.Lemmas2

/-!
# The history tree: collapsing, the rightmost path, proofs
-/

namespace Verif.HTree
open Verif Verif.Merkle Verif.Trie

variable {E : HEnv} {D : HDisk} {M : Bool}

/-! ### Collapsing -/

theorem collapseNode_spec {h : Nat} {n : TNode} {l : List Bytes} (hr : HTree.Rep E D M h n l) (hd : n.dirty = false) :
    ∃ n', collapseNode E.H n = (n', true) ∧ HTree.Rep E D M h n' l := by
  have hs := rep_clean hr hd
  have hr0 := hr
  rw [rep_eq] at hr
  obtain ⟨h0, h1, hr⟩ := hr
  rcases hr with ⟨⟨i, rfl, hdi, hlf, x, hx, hb⟩, _⟩ | ⟨i, c, rfl, ho, _⟩
  · exact ⟨_, by rw [collapseNode, if_pos (closed_isCollapsed hlf hb)], hr0⟩
  · have hnc := notCollapsed (fun _ _ => Kid.isSome) h1 ho
    obtain ⟨x, hx⟩ := hspec_some (H := E.H) (k := 4 * h + 4) h0
    have hh := (hash_spec h _ l hr0).1
    refine ⟨.mk ⟨false, i.leaf, fun p => if p = [] then some x else none, fun _ => none⟩ fun _ => .nil, ?_, ?_⟩
    · rw [collapseNode, if_neg (by rw [hnc]; simp)]
      simp only [hh, hx]
    · rw [rep_eq]
      exact ⟨h0, h1, .inl ⟨⟨_, rfl, rfl, fun _ => rfl, x, hx, rfl⟩, hs⟩⟩

theorem rep_open {h : Nat} {i : TInfo} {c : Nib → TNode} {n : TNode} {l : List Bytes} (hr : HTree.Rep E D M h n l)
    (ho : OpenC E.H M h (Kid E D M h) i c l) (hs : i.dirty = false → Stored E D M h l) : HTree.Rep E D M h (.mk i c) l := by
  rw [rep_eq] at *
  exact ⟨hr.1, hr.2.1, .inr ⟨i, c, rfl, ho, hs⟩⟩

theorem OpenC.setKid' {h : Nat} {i : TInfo} {c : Nib → TNode} {l : List Bytes} {j : Nib} {n' : TNode}
    (ho : OpenC E.H M h (Kid E D M h) i c l) (hsome : (c j).isSome = true) (hn : Kid E D M h n' (part h j l)) :
    OpenC E.H M h (Kid E D M h) i (setKid c j n') l := by
  refine ho.congr rfl rfl ho.br (fun _ h => h) ?_ ?_
  · intro m hm
    by_cases hmj : m = j
    · subst hmj; rw [hm] at hsome; cases hsome
    · simp [setKid, hmj, hm]
  · intro _ m hm
    by_cases hmj : m = j
    · subst hmj; simp only [setKid, if_true]; exact hn
    · simp only [setKid, hmj, if_false]; exact hm

/-- A child that is there stands for its block. -/
theorem OpenC.kid {h : Nat} {i : TInfo} {c : Nib → TNode} {l : List Bytes} {j : Nib}
    (ho : OpenC E.H M (h + 1) (Kid E D M (h + 1)) i c l) (hsome : (c j).isSome = true) :
    part (h + 1) j l ≠ [] ∧ HTree.Rep E D M h (c j) (part (h + 1) j l) := by
  have hnn : c j ≠ .nil := by intro e; rw [e] at hsome; cases hsome
  rcases ho.slot j with h1 | ⟨_, h1, _⟩
  · unfold Known at h1
    rw [if_neg (by omega)] at h1
    rcases h1 with ⟨_, h1⟩ | h1
    · exact absurd h1 hnn
    · exact h1
  · rw [if_neg (by omega)] at h1
    exact absurd h1 hnn

theorem pred_part {h : Nat} {l : List Bytes} {j : Nib} (hj : j.val ≠ 0) (hp : part h j l ≠ []) :
    part h (j - 1) l ≠ [] := by
  intro he
  apply hp
  rw [part_eq_nil] at *
  have : (j - 1).val ≤ j.val := by
    rw [Fin.val_sub_one_of_ne_zero (by intro e; rw [e] at hj; exact hj rfl)]
    omega
  exact he.trans (Nat.mul_le_mul_right _ this)

/-- `CollapseBefore` keeps what the tree stands for, and does not panic if all values are there. -/
theorem collapse_spec (hH : ∀ b, (E.H b).length = 32) : ∀ (q : List Nib) (h : Nat) (n : TNode) (l : List Bytes),
    HTree.Rep E D M h n l → ∃ n' r, collapseAt E D q n = (n', r) ∧ HTree.Rep E D M h n' l ∧ (M = false → r ≠ .panic) := by
  intro q
  induction q with
  | nil => intro h n l hr; exact ⟨_, _, rfl, hr, by simp⟩
  | cons j q ih =>
    intro h n l hr
    obtain ⟨i, c, hop, ho, hs⟩ := opened_rep hH hr
    have hrep := rep_open hr ho hs
    rw [collapseAt]
    simp only [hop, Bool.true_eq_false, if_false]
    cases h with
    | zero =>
      have hlf : i.leaf = true := by rw [ho.leaf]; rfl
      rw [if_pos hlf]
      exact ⟨_, _, rfl, hrep, by simp⟩
    | succ h =>
      have hlf : i.leaf = false := by rw [ho.leaf]; rfl
      rw [if_neg (by rw [hlf]; simp)]
      by_cases hcj : (c j).isSome = false
      · rw [if_pos hcj]
        exact ⟨_, _, rfl, hrep, by simp⟩
      · rw [if_neg hcj]
        have hsome : (c j).isSome = true := by simpa using hcj
        obtain ⟨hpne, hkr⟩ := ho.kid hsome
        by_cases hq : q = []
        · rw [if_pos hq]
          by_cases hj0 : j.val = 0
          · rw [if_pos hj0]
            exact ⟨_, _, rfl, hrep, by simp⟩
          · rw [if_neg hj0]
            by_cases hp : (c (j - 1)).isSome = false
            · rw [if_pos hp]
              refine ⟨_, _, rfl, hrep, ?_⟩
              intro hM
              exfalso
              rcases ho.slot (j - 1) with h1 | ⟨h1, _⟩
              · unfold Known at h1
                rw [if_neg (by omega)] at h1
                rcases h1 with ⟨h1, _⟩ | ⟨_, h1⟩
                · exact pred_part hj0 hpne h1
                · rw [Kid.isSome h1] at hp; cases hp
              · rw [hM] at h1; cases h1
            · rw [if_neg hp]
              have hpsome : (c (j - 1)).isSome = true := by simpa using hp
              by_cases hd : (c (j - 1)).dirty = true
              · rw [if_pos hd]
                exact ⟨_, _, rfl, hrep, by simp⟩
              · rw [if_neg hd]
                obtain ⟨n', he, hr'⟩ := collapseNode_spec (ho.kid hpsome).2 (by simpa using hd)
                rw [he]
                exact ⟨_, _, rfl, rep_open hr (ho.setKid' hpsome hr') hs, by simp⟩
        · rw [if_neg hq]
          obtain ⟨n', r, he, hr', hnp⟩ := ih h (c j) _ hkr
          rw [he]
          exact ⟨_, _, rfl, rep_open hr (ho.setKid' hsome hr') hs, hnp⟩

/-! ### The rightmost path -/

theorem rightmost_initial : ∀ (m : Nib) (check : Bool), rightmost (fun j => decide (j ≤ m)) check none nibbles = some m := by
  decide

/-- With all values there, the slots in use are those up to the last one. -/
theorem slots_initial {h : Nat} {i : TInfo} {c : Nib → TNode} {l : List Bytes} (h0 : l ≠ [])
    (hl : l.length ≤ 2 ^ (4 * h + 4)) (ho : OpenC E.H false h (Kid E D false h) i c l) :
    (fun j => if h = 0 then (i.leafs j).isSome else (c j).isSome) = fun j => decide (j ≤ lastNib h l hl) := by
  funext j
  have hp : part h j l = [] ↔ ¬ j ≤ lastNib h l hl := by
    rw [part_eq_nil, Fin.le_def]
    simp only [lastNib]
    have hpos := pow_pos2 (4 * h)
    have h1 : 0 < l.length := List.length_pos_iff.mpr h0
    rw [Nat.le_div_iff_mul_le hpos]
    omega
  have hk : Known h (Kid E D false h) i c j (part h j l) := by
    rcases ho.slot j with h1 | ⟨h1, _⟩
    · exact h1
    · cases h1
  unfold Known at hk
  by_cases hz : h = 0
  · rw [if_pos hz] at hk
    simp only [hz, if_true]
    rw [hk]
    by_cases hj : j ≤ lastNib h l hl
    · have : part h j l ≠ [] := fun e => hp.mp e hj
      cases hq : part h j l with
      | nil => exact absurd hq this
      | cons a b => subst hz; simpa using hj
    · rw [hp.mpr hj]; subst hz; simpa using hj
  · rw [if_neg hz] at hk
    simp only [hz, if_false]
    rcases hk with ⟨h1, h2⟩ | ⟨h1, h2⟩
    · rw [h2]; have := hp.mp h1; simpa [TNode.isSome] using this
    · rw [Kid.isSome h2]
      have : j ≤ lastNib h l hl := by by_contra hn; exact h1 (hp.mpr hn)
      simpa using this

/-- `findRightmost` finds the path of the last value. -/
theorem findRightmost_spec (hH : ∀ b, (E.H b).length = 32) (check : Bool) : ∀ (h f : Nat) (n : TNode) (l : List Bytes),
    HTree.Rep E D false h n l → h < f →
    ∃ n', findRightmost E D check f n = (n', some (digits (h + 1) (l.length - 1))) ∧ HTree.Rep E D false h n' l := by
  intro h
  induction h with
  | zero =>
    intro f n l hr hf
    obtain ⟨f, rfl⟩ : ∃ f', f = f' + 1 := ⟨f - 1, by omega⟩
    obtain ⟨i, c, hop, ho, hs⟩ := opened_rep hH hr
    have hr' := hr
    rw [rep_eq] at hr'
    have hlf : i.leaf = true := by rw [ho.leaf]; rfl
    have hsl := slots_initial hr'.1 hr'.2.1 ho
    simp only [if_true] at hsl
    have h1 : 0 < l.length := List.length_pos_iff.mpr hr'.1
    obtain ⟨j, hj, hdig⟩ := digits_succ 0 (l.length - 1) (by have := hr'.2.1; omega)
    have hlast : lastNib 0 l hr'.2.1 = j := Fin.ext hj
    rw [findRightmost]
    simp only [hop, Bool.true_eq_false, if_false, hlf, if_true, hsl, rightmost_initial, hdig, hlast, Option.map_some]
    exact ⟨_, rfl, rep_open hr ho hs⟩
  | succ h ih =>
    intro f n l hr hf
    obtain ⟨f, rfl⟩ : ∃ f', f = f' + 1 := ⟨f - 1, by omega⟩
    obtain ⟨i, c, hop, ho, hs⟩ := opened_rep hH hr
    have hr' := hr
    rw [rep_eq] at hr'
    have hlf : i.leaf = false := by rw [ho.leaf]; rfl
    have hsl := slots_initial hr'.1 hr'.2.1 ho
    simp only [Nat.succ_ne_zero, if_false] at hsl
    have h1 : 0 < l.length := List.length_pos_iff.mpr hr'.1
    obtain ⟨j, hj, hdig⟩ := digits_succ (h + 1) (l.length - 1) (by have := hr'.2.1; omega)
    have hlast : lastNib (h + 1) l hr'.2.1 = j := Fin.ext hj
    rw [findRightmost]
    simp only [hop, Bool.true_eq_false, if_false, hlf, Bool.false_eq_true, hsl, rightmost_initial, hlast]
    have hsome : (c j).isSome = true := by
      have := congrFun hsl j
      simp only [hlast] at this
      rw [this]; simp
    obtain ⟨hpne, hkr⟩ := ho.kid hsome
    obtain ⟨n', he, hr2⟩ := ih f (c j) _ hkr (by omega)
    have hlen : (part (h + 1) j l).length - 1 = (l.length - 1) % 2 ^ (4 * (h + 1)) := by
      have e1 := Nat.div_add_mod (l.length - 1) (2 ^ (4 * (h + 1)))
      have e2 := Nat.mod_lt (l.length - 1) (pow_pos2 (4 * (h + 1)))
      rw [hj, Nat.mul_comm] at e1
      rw [part_eq, List.length_take, List.length_drop]
      omega
    rw [he, hdig, hlen]
    exact ⟨_, rfl, rep_open hr (ho.setKid' hsome hr2) hs⟩

/-! ### Proofs -/

theorem bit_step (j : Nib) (t : Nat) (ht : t < 4) :
    (bits4 j).take (t + 1) = (bits4 j).take t ++ [(bits4 j).getD t false] := by
  revert j
  have : t = 0 ∨ t = 1 ∨ t = 2 ∨ t = 3 := by omega
  rcases this with rfl | rfl | rfl | rfl <;> decide

section Up
variable {H : Bytes → Bytes} {k : Nat} {l : List Bytes} {slot : Nib → Option (Option Bytes)} {j : Nib}

/-- All slots known. -/
def AllSlots (H : Bytes → Bytes) (k : Nat) (l : List Bytes) (slot : Nib → Option (Option Bytes)) : Prop :=
  ∀ j, slot j = some (hspec H k (sub (k + 4) (bits4 j) l))

theorem AllSlots.cov (h : AllSlots H k l slot) (br : List Bool → Option Bytes) (p : List Bool) : Cov H k l slot br p :=
  fun j _ => .inl (h j)

/-- The block of a longer prefix of a path that is in use is not empty. -/
theorem take_ne_nil (t : Nat) (ht : t ≤ 4) (hne : sub (k + 4) (bits4 j) l ≠ []) :
    sub (k + 4) ((bits4 j).take t) l ≠ [] := by
  intro he
  apply hne
  have h1 : sub (k + 4) ((bits4 j).take 4) l = [] := by
    have : ∀ m, t + m ≤ 4 → sub (k + 4) ((bits4 j).take (t + m)) l = [] := by
      intro m
      induction m with
      | zero => intro _; exact he
      | succ m ih =>
        intro hm
        rw [← Nat.add_assoc, bit_step j (t + m) (by omega)]
        have hlen : ((bits4 j).take (t + m)).length < k + 4 := by simp [bits4_length]; omega
        cases (bits4 j).getD (t + m) false with
        | false => rw [sub_false l hlen, ih (by omega)]; simp
        | true => rw [sub_true l hlen, ih (by omega)]; simp
    have := this (4 - t) (by omega)
    rwa [show t + (4 - t) = 4 by omega] at this
  exact h1

theorem sibling_step (hs : AllSlots H k l slot) (hne : sub (k + 4) (bits4 j) l ≠ []) (t : Nat) (ht : t < 4) (st : HState)
    (hb : BrOk H k l st.br) :
    ∃ y f1 f2, (hashPfx H slot (3 - t) (sibling j t) st).2 = some (y, f1, f2) ∧
      BrOk H k l (hashPfx H slot (3 - t) (sibling j t) st).1.br ∧
      (∀ q, (st.br q).isSome → ((hashPfx H slot (3 - t) (sibling j t) st).1.br q).isSome) ∧
      y = hspec H (k + (3 - t)) (sub (k + 4) (sibling j t) l) ∧
      ((bits4 j).getD t false = true → f1 = false ∧ f2 = false ∧ y.isSome) ∧
      ∀ x, hspec H (k + (3 - t)) (sub (k + 4) ((bits4 j).take (t + 1)) l) = some x →
        hspec H (k + (4 - t)) (sub (k + 4) ((bits4 j).take t) l) =
          some (if (bits4 j).getD t false then hashPair H (y.getD []) x else hashPair H x (y.getD (nilHash H))) := by
  have hplen : ((bits4 j).take t).length = t := by simp [bits4_length]; omega
  have hplt : ((bits4 j).take t).length < k + 4 := by omega
  have hsl : (sibling j t).length + (3 - t) = 4 := by simp [sibling, bits4_length]; omega
  obtain ⟨g1, g2, f1, f2, g3, g4, g5, g6⟩ := hashPfx_spec (H := H) k l slot (3 - t) (sibling j t) st hsl hb (hs.cov _ _)
  have hexp : k + 4 - (((bits4 j).take t).length + 1) = k + (3 - t) := by omega
  have hF := sub_false l hplt
  have hT := sub_true l hplt
  rw [hexp] at hF hT
  have hpath := take_ne_nil (t + 1) (by omega) hne
  rw [bit_step j t ht] at hpath
  refine ⟨_, f1, f2, g3, g1, g2, rfl, ?_, ?_⟩
  · intro hbit
    have hsib : sibling j t = (bits4 j).take t ++ [false] := by rw [sibling, hbit]; rfl
    rw [hbit, hT] at hpath
    have hlen : 2 ^ (k + (3 - t)) < (sub (k + 4) ((bits4 j).take t) l).length := by
      by_contra hn
      exact hpath (List.drop_eq_nil_of_le (by omega))
    have hfull : (sub (k + 4) (sibling j t) l).length = 2 ^ (k + (3 - t)) := by
      rw [hsib, hF, List.length_take]; omega
    have hpos := pow_pos2 (k + (3 - t))
    refine ⟨?_, ?_, ?_⟩
    · by_contra hf
      have := g5 (by simpa using hf)
      rw [this] at hfull
      simp at hfull
      omega
    · by_contra hf
      obtain ⟨h1, h2⟩ := g6 (by simpa using hf)
      rw [hfull] at h2
      have e : 2 ^ (k + (3 - t)) = 2 * 2 ^ (k + (3 - t) - 1) := by
        obtain ⟨m, hm⟩ : ∃ m, k + (3 - t) = m + 1 := ⟨k + (3 - t) - 1, by omega⟩
        rw [hm, Nat.pow_succ, Nat.mul_comm]; simp
      have := pow_pos2 (k + (3 - t) - 1)
      omega
    · cases hy : hspec H (k + (3 - t)) (sub (k + 4) (sibling j t) l) with
      | some y => rfl
      | none =>
        rw [hspec_eq_none.mp hy] at hfull
        simp at hfull
        omega
  · intro x hx
    rw [show k + (4 - t) = (k + (3 - t)) + 1 by omega, hspec, ← hF, ← hT]
    rw [bit_step j t ht] at hx
    cases hbit : (bits4 j).getD t false with
    | false =>
      rw [hbit] at hx
      rw [hx]
      have : sibling j t = (bits4 j).take t ++ [true] := by rw [sibling, hbit]; rfl
      rw [this]
      rfl
    | true =>
      rw [hbit] at hx
      have hsib : sibling j t = (bits4 j).take t ++ [false] := by rw [sibling, hbit]; rfl
      rw [hx, ← hsib]
      rw [hbit, hT] at hpath
      cases hy : hspec H (k + (3 - t)) (sub (k + 4) (sibling j t) l) with
      | some y => rfl
      | none =>
        exfalso
        have := hspec_eq_none.mp hy
        rw [hsib, hF, List.take_eq_nil_iff] at this
        have hpos := pow_pos2 (k + (3 - t))
        rcases this with h | h
        · omega
        · rw [h] at hpath; simp at hpath

theorem toHash_hspec (hH : ∀ b, (H b).length = 32) {l : List Bytes} (h32 : ∀ v ∈ l, v.length = 32) {k : Nat} {y : Bytes}
    (h : hspec H k l = some y) : toHash y = y := toHash_of_len (hspec_len' hH h32 h)

theorem toHash_nil (hH : ∀ b, (H b).length = 32) : toHash (nilHash H) = nilHash H := toHash_of_len (hH _)

theorem sub_32 (h32 : ∀ v ∈ l, v.length = 32) (K : Nat) (p : List Bool) : ∀ v ∈ sub K p l, v.length = 32 :=
  fun v hv => h32 v (sub_mem hv)

/-- The sibling hashes on the way up from bit `t` of the slot `j`. -/
def upItems (H : Bytes → Bytes) (k : Nat) (l : List Bytes) (j : Nib) : Nat → List (Bytes × Bool)
  | 0 => []
  | t + 1 =>
    (toHash ((hspec H (k + (3 - t)) (sub (k + 4) (sibling j t) l)).getD (nilHash H)), (bits4 j).getD t false) :: upItems H k l j t

theorem proofUp_spec (hH : ∀ b, (H b).length = 32) (hs : AllSlots H k l slot)
    (hne : sub (k + 4) (bits4 j) l ≠ []) : ∀ (t : Nat) (st : HState), t ≤ 3 → BrOk H k l st.br →
    ∃ st' items, proofUp H slot j t st = (st', some items) ∧ BrOk H k l st'.br ∧
      (∀ q, (st.br q).isSome → (st'.br q).isSome) ∧ items.map Prod.snd = ((bits4 j).take t).reverse ∧ items = upItems H k l j t ∧
      ((∀ v ∈ l, v.length = 32) → ∀ x, hspec H (k + (4 - t)) (sub (k + 4) ((bits4 j).take t) l) = some x →
        hspec H (k + 4) (sub (k + 4) [] l) = some (evalItems H items x)) := by
  intro t
  induction t with
  | zero =>
    intro st _ hb
    refine ⟨st, [], rfl, hb, fun _ h => h, by simp, rfl, ?_⟩
    intro _ x hx
    exact hx
  | succ t ih =>
    intro st ht hb
    obtain ⟨y, f1, f2, e1, e2, e3, e4, e5, e6⟩ := sibling_step hs hne t (by omega) st hb
    rw [proofUp]
    simp only [e1]
    generalize hashPfx H slot (3 - t) (sibling j t) st = r at e2 e3 ⊢
    obtain ⟨st', items, g1, g2, g3, g4, g6, g5⟩ := ih r.1 (by omega) e2
    have h3 : k + (4 - (t + 1)) = k + (3 - t) := by omega
    cases hbit : (bits4 j).getD t false with
    | true =>
      obtain ⟨c1, c2, c3⟩ := e5 hbit
      subst c1 c2
      obtain ⟨z, rfl⟩ := Option.isSome_iff_exists.mp c3
      simp only [if_true, Bool.or_false, Bool.false_eq_true, if_false, g1, Option.map_some]
      refine ⟨_, _, rfl, g2, fun q h => g3 q (e3 q h), ?_, ?_, ?_⟩
      · rw [List.map_cons, g4, bit_step j t (by omega), hbit]; simp
      · rw [upItems, g6, hbit, ← e4]; rfl
      · intro h32 x hx
        rw [h3] at hx
        have := e6 x hx
        rw [hbit] at this
        have h1 := g5 h32 _ this
        rw [h1, toHash_hspec hH (sub_32 h32 _ _) e4.symm]
        rfl
    | false =>
      simp only [Bool.false_eq_true, if_false, g1, Option.map_some]
      refine ⟨_, _, rfl, g2, fun q h => g3 q (e3 q h), ?_, ?_, ?_⟩
      · rw [List.map_cons, g4, bit_step j t (by omega), hbit]; simp
      · rw [upItems, g6, hbit, ← e4]
      · intro h32 x hx
        rw [h3] at hx
        have := e6 x hx
        rw [hbit] at this
        have h1 := g5 h32 _ this
        rw [h1]
        have : toHash (y.getD (nilHash H)) = y.getD (nilHash H) := by
          cases hy : y with
          | none => exact toHash_nil hH
          | some z => exact toHash_hspec hH (sub_32 h32 _ _) (e4.symm.trans hy)
        rw [this]
        rfl

theorem proofItems_spec (hH : ∀ b, (H b).length = 32) (hs : AllSlots H k l slot)
    (hne : sub (k + 4) (bits4 j) l ≠ []) (st : HState) (hb : BrOk H k l st.br) :
    ∃ st' items, proofItems H slot j st = (st', some items) ∧ BrOk H k l st'.br ∧
      (∀ q, (st.br q).isSome → (st'.br q).isSome) ∧ items.map Prod.snd = (bits4 j).reverse ∧ items = upItems H k l j 4 ∧
      ((∀ v ∈ l, v.length = 32) → ∀ x, hspec H k (sub (k + 4) (bits4 j) l) = some x →
        hspec H (k + 4) (sub (k + 4) [] l) = some (evalItems H items x)) := by
  obtain ⟨a1, a2, b1, b2, a3, _⟩ := hashPfx_spec (H := H) k l slot 0 (bits4 j) st rfl hb (hs.cov _ _)
  rw [proofItems]
  generalize hashPfx H slot 0 (bits4 j) st = o at a1 a2 a3 ⊢
  obtain ⟨y, f1, f2, e1, e2, e3, e4, e5, e6⟩ := sibling_step hs hne 3 (by omega) o.1 a1
  simp only [show 3 - 3 = 0 from rfl] at e1 e2 e3
  simp only [a3, e1]
  generalize hashPfx H slot 0 (sibling j 3) o.1 = r at e2 e3 ⊢
  obtain ⟨st', items, g1, g2, g3, g4, g6, g5⟩ := proofUp_spec hH hs hne 3 r.1 (by omega) e2
  cases hbit : (bits4 j).getD 3 false with
  | true =>
    obtain ⟨c1, c2, c3⟩ := e5 hbit
    obtain ⟨z, rfl⟩ := Option.isSome_iff_exists.mp c3
    simp only [if_true, g1, Option.map_some]
    refine ⟨_, _, rfl, g2, fun q h => g3 q (e3 q (a2 q h)), ?_, by rw [upItems, g6, hbit, ← e4]; rfl, ?_⟩
    · have := bit_step j 3 (by omega)
      rw [hbit] at this
      rw [List.map_cons, g4]; rw [show (bits4 j).reverse = ((bits4 j).take (3 + 1)).reverse from rfl, this]; simp
    · intro h32 x hx
      have := e6 x hx
      rw [hbit] at this
      have h1 := g5 h32 _ this
      rw [h1, toHash_hspec hH (sub_32 h32 _ _) e4.symm]
      rfl
  | false =>
    simp only [Bool.false_eq_true, if_false, g1, Option.map_some]
    refine ⟨_, _, rfl, g2, fun q h => g3 q (e3 q (a2 q h)), ?_, by rw [upItems, g6, hbit, ← e4], ?_⟩
    · have := bit_step j 3 (by omega)
      rw [hbit] at this
      rw [List.map_cons, g4]; rw [show (bits4 j).reverse = ((bits4 j).take (3 + 1)).reverse from rfl, this]; simp
    · intro h32 x hx
      have := e6 x hx
      rw [hbit] at this
      have h1 := g5 h32 _ this
      rw [h1]
      have : toHash (y.getD (nilHash H)) = y.getD (nilHash H) := by
        cases hy : y with
        | none => exact toHash_nil hH
        | some z => exact toHash_hspec hH (sub_32 h32 _ _) (e4.symm.trans hy)
      rw [this]
      rfl

end Up

theorem OpenC.allSlots {h : Nat} {i : TInfo} {c : Nib → TNode} {l : List Bytes}
    (ho : OpenC E.H false h (Kid E D false h) i c l) : AllSlots E.H (4 * h) l (slotsOf E.H i c) := by
  intro j
  rcases ho.slot j with h1 | ⟨h1, _⟩
  · exact slotsOf_spec ho (fun h0 n a hn => (kid_hash h h0 n a hn).1) j h1
  · cases h1

theorem nodeItems_spec (hH : ∀ b, (E.H b).length = 32) {h : Nat} {i : TInfo} {c : Nib → TNode} {l : List Bytes} {j : Nib}
    (hl : l.length ≤ 2 ^ (4 * h + 4)) (ho : OpenC E.H false h (Kid E D false h) i c l)
    (hne : part h j l ≠ []) :
    ∃ i' c' items, nodeItems E.H i c j = (.mk i' c', some items) ∧ i'.dirty = i.dirty ∧
      OpenC E.H false h (Kid E D false h) i' c' l ∧ items.map Prod.snd = (bits4 j).reverse ∧
      items = upItems E.H (4 * h) l j 4 ∧
      ((∀ v ∈ l, v.length = 32) → ∀ x, hspec E.H (4 * h) (part h j l) = some x →
        hspec E.H (4 * h + 4) l = some (evalItems E.H items x)) := by
  obtain ⟨st', items, e1, e2, e3, e4, e6, e5⟩ := proofItems_spec hH ho.allSlots hne ⟨i.br, fun _ => false⟩ ho.br
  rw [nodeItems, e1]
  rw [sub_nil_prefix hl] at e5
  refine ⟨_, _, items, rfl, rfl, ?_, e4, e6, e5⟩
  refine ho.congr rfl rfl e2 e3 ?_ ?_
  · intro m hm
    simp only [settle, hm, hashNode_nil, ite_self]
  · intro h0 m hm
    simp only [settle]
    split
    · exact hm
    · split
      · exact (kid_hash h h0 _ _ hm).2
      · exact hm

theorem bitsNat_append (a b : List Bool) : bitsNat (a ++ b) = bitsNat a + 2 ^ a.length * bitsNat b := by
  induction a with
  | nil => simp [bitsNat]
  | cons x a ih =>
    simp only [List.cons_append, bitsNat, ih, List.length_cons, Nat.pow_succ]
    ring

theorem bitsNat_bits4 : ∀ j : Nib, bitsNat (bits4 j).reverse = j.val := by decide

/-- The sibling hashes of the position whose nibbles are given, from the leaf up. -/
def pathItems (H : Bytes → Bytes) : List Nib → List Bytes → List (Bytes × Bool)
  | [], _ => []
  | j :: q, l => pathItems H q (part q.length j l) ++ upItems H (4 * q.length) l j 4

/-- The proof of a position. -/
theorem proof_spec (hH : ∀ b, (E.H b).length = 32) : ∀ (h : Nat) (n : TNode) (l : List Bytes) (k : Nat),
    HTree.Rep E D false h n l → k < l.length →
    ∃ n' items v, proofAt E D (digits (h + 1) k) n = (n', some (v, items)) ∧ HTree.Rep E D false h n' l ∧ l[k]? = some v ∧
      items.length = 4 * h + 4 ∧ bitsNat (items.map Prod.snd) = k ∧
      items = pathItems E.H (digits (h + 1) k) l ∧ ((∀ v ∈ l, v.length = 32) → hspec E.H (4 * h + 4) l = some (evalItems E.H items v)) := by
  intro h
  induction h with
  | zero =>
    intro n l k hr hk
    obtain ⟨i, c, hop, ho, hs⟩ := opened_rep hH hr
    have hr' := hr
    rw [rep_eq] at hr'
    obtain ⟨j, hj, hdig⟩ := digits_succ 0 k (by have := hr'.2.1; omega)
    have hjk : j.val = k := by rw [← hj]; simp
    have hlf : i.leaf = true := by rw [ho.leaf]; rfl
    have hpart : (part 0 j l).head? = l[k]? := by
      rw [List.head?_eq_getElem?, part_getElem? _ _ _ _ (by norm_num), hjk]; simp
    have hval : l[k]? = some l[k] := List.getElem?_eq_getElem hk
    have hleaf : i.leafs j = some l[k] := by
      rcases ho.slot j with h1 | ⟨h1, _⟩
      · unfold Known at h1
        rw [if_pos rfl, hpart, hval] at h1
        exact h1
      · cases h1
    have hne : part 0 j l ≠ [] := by
      intro e; rw [e, hval] at hpart; cases hpart
    obtain ⟨i', c', items, g1, g2, g3, g4, g6, g5⟩ := nodeItems_spec hH hr'.2.1 ho hne
    rw [hdig, proofAt]
    simp only [hop, Bool.true_eq_false, if_false, digits, if_true, hlf, hleaf, g1, Option.map_some]
    refine ⟨_, items, l[k], rfl, rep_open hr g3 (by rw [g2]; exact hs), hval, ?_, ?_, ?_, ?_⟩
    · have := congrArg List.length g4
      simpa [bits4_length] using this
    · rw [g4, bitsNat_bits4, hjk]
    · rw [pathItems, g6]; rfl
    · exact fun h32 => g5 h32 _ (hpart.trans hval)
  | succ h ih =>
    intro n l k hr hk
    obtain ⟨i, c, hop, ho, hs⟩ := opened_rep hH hr
    have hr' := hr
    rw [rep_eq] at hr'
    obtain ⟨j, hj, hdig⟩ := digits_succ (h + 1) k (by have := hr'.2.1; omega)
    have hlf : i.leaf = false := by rw [ho.leaf]; rfl
    have hmod : k % 2 ^ (4 * (h + 1)) < 2 ^ (4 * h + 4) := Nat.mod_lt _ (pow_pos2 _)
    have hdm := Nat.div_add_mod k (2 ^ (4 * (h + 1)))
    rw [hj] at hdm
    have hlk : l[k]? = (part (h + 1) j l)[k % 2 ^ (4 * (h + 1))]? := by
      rw [part_getElem? _ _ _ _ hmod, Nat.mul_comm, hdm]
    have hval : l[k]? = some l[k] := List.getElem?_eq_getElem hk
    have hklt : k % 2 ^ (4 * (h + 1)) < (part (h + 1) j l).length := by
      by_contra hn
      rw [hlk, List.getElem?_eq_none (by omega)] at hval
      cases hval
    have hne : part (h + 1) j l ≠ [] := by
      intro e; rw [e] at hklt; simp at hklt
    have hsome : (c j).isSome = true := by
      rcases ho.slot j with h1 | ⟨h1, _⟩
      · unfold Known at h1
        rw [if_neg (by omega)] at h1
        rcases h1 with ⟨h1, _⟩ | ⟨_, h1⟩
        · exact absurd h1 hne
        · exact Kid.isSome h1
      · cases h1
    obtain ⟨n', its, v, e1, e2, e3, e4, e5, e7, e6⟩ := ih (c j) (part (h + 1) j l) _
      (ho.kid hsome).2 hklt
    obtain ⟨i', c', items, g1, g2, g3, g4, g6, g5⟩ := nodeItems_spec hH hr'.2.1 (ho.setKid' hsome e2) hne
    rw [hdig, proofAt]
    simp only [hop, Bool.true_eq_false, if_false, hlf, Bool.false_eq_true, digits_ne_nil, Nat.succ_ne_zero, hsome, if_true, e1,
      g1, Option.map_some]
    have hlen : items.length = 4 := by
      have := congrArg List.length g4
      simpa [bits4_length] using this
    refine ⟨_, its ++ items, v, rfl, rep_open hr g3 (by rw [g2]; exact hs), hlk.trans e3, ?_, ?_, ?_, ?_⟩
    · rw [List.length_append, e4, hlen]; omega
    · rw [List.map_append, bitsNat_append, e5, g4, bitsNat_bits4, List.length_map, e4]
      rw [show 4 * h + 4 = 4 * (h + 1) by omega]
      omega
    · rw [pathItems, g6, e7]
      simp only [digits_length]
    · intro h32
      rw [evalItems_append]
      exact g5 h32 _ (e6 fun v hv => h32 v (part_mem hv))

/-- There is no proof of a position that is not in use. -/
theorem proof_absent (hH : ∀ b, (E.H b).length = 32) : ∀ (h : Nat) (n : TNode) (l : List Bytes) (k : Nat),
    HTree.Rep E D false h n l → l.length ≤ k → k < 2 ^ (4 * h + 4) →
    ∃ n', proofAt E D (digits (h + 1) k) n = (n', none) ∧ HTree.Rep E D false h n' l := by
  intro h
  induction h with
  | zero =>
    intro n l k hr hk hk2
    obtain ⟨i, c, hop, ho, hs⟩ := opened_rep hH hr
    obtain ⟨j, hj, hdig⟩ := digits_succ 0 k hk2
    have hjk : j.val = k := by rw [← hj]; simp
    have hlf : i.leaf = true := by rw [ho.leaf]; rfl
    have hleaf : i.leafs j = none := by
      rcases ho.slot j with h1 | ⟨h1, _⟩
      · unfold Known at h1
        rw [if_pos rfl] at h1
        rw [h1, List.head?_eq_getElem?, part_getElem? _ _ _ _ (by norm_num), hjk]
        simpa using hk
      · cases h1
    rw [hdig, proofAt]
    simp only [hop, Bool.true_eq_false, if_false, digits, if_true, hlf, hleaf]
    exact ⟨_, rfl, rep_open hr ho hs⟩
  | succ h ih =>
    intro n l k hr hk hk2
    obtain ⟨i, c, hop, ho, hs⟩ := opened_rep hH hr
    obtain ⟨j, hj, hdig⟩ := digits_succ (h + 1) k hk2
    have hlf : i.leaf = false := by rw [ho.leaf]; rfl
    have hmod : k % 2 ^ (4 * (h + 1)) < 2 ^ (4 * h + 4) := Nat.mod_lt _ (pow_pos2 _)
    have hdm := Nat.div_add_mod k (2 ^ (4 * (h + 1)))
    rw [hj, Nat.mul_comm] at hdm
    rw [hdig, proofAt]
    simp only [hop, Bool.true_eq_false, if_false, hlf, Bool.false_eq_true, digits_ne_nil, Nat.succ_ne_zero]
    by_cases hsome : (c j).isSome = true
    · have hle : (part (h + 1) j l).length ≤ k % 2 ^ (4 * (h + 1)) := by
        rw [part_eq, List.length_take, List.length_drop]; omega
      obtain ⟨n', e1, e2⟩ := ih (c j) _ _ (ho.kid hsome).2 hle hmod
      simp only [hsome, if_true, e1]
      exact ⟨_, rfl, rep_open hr (ho.setKid' hsome e2) hs⟩
    · simp only [hsome, Bool.false_eq_true, if_false]
      exact ⟨_, rfl, rep_open hr ho hs⟩

end Verif.HTree

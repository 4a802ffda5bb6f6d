import Verif.Merkle.Model
import Verif.Merkle.Spec

/-!
# Auxiliary facts for the Merkle properties
-/

namespace Verif.Merkle
open Verif

/-! ### Run-length tables -/

/-- A list of runs: a hash and how many more times it is repeated. -/
abbrev Runs := List (Bytes × Nat)

/-- The repeat table of runs numbered from `i`. -/
def repsOf : Nat → Runs → List MoreTime
  | _, [] => []
  | i, (_, 0) :: R => repsOf (i + 1) R
  | i, (_, e + 1) :: R => ⟨i, (e + 1 : Nat)⟩ :: repsOf (i + 1) R

/-- The hashes spelled by the runs. -/
def spell : Runs → List Bytes
  | [] => []
  | (h, e) :: R => List.replicate (e + 1) h ++ spell R

/-- Position in the runs of an index into the spelled list. -/
def locate : Runs → Nat → Nat
  | [], g => g
  | (_, e) :: R, g => if g ≤ e then 0 else 1 + locate R (g - e - 1)

theorem repsOf_append (R : Runs) (i : Nat) (h : Bytes) (e : Nat) :
    repsOf i (R ++ [(h, e)]) = repsOf i R ++ (if e = 0 then [] else [⟨(i + R.length : Nat), (e : Int)⟩]) := by
  induction R generalizing i with
  | nil => cases e with
    | zero => simp [repsOf]
    | succ e => simp [repsOf]
  | cons r R ih =>
    obtain ⟨h', e'⟩ := r
    have hl : i + ((h', e') :: R).length = i + 1 + R.length := by simp; omega
    rw [hl]
    cases e' with
    | zero => simp only [List.cons_append, repsOf]; exact ih (i + 1)
    | succ e' => simp only [List.cons_append, repsOf]; rw [ih (i + 1)]

theorem repsOf_mem (R : Runs) (i : Nat) (m : MoreTime) (hm : m ∈ repsOf i R) :
    (i : Int) ≤ m.index ∧ m.index < (i + R.length : Nat) ∧ 0 < m.times := by
  induction R generalizing i with
  | nil => simp [repsOf] at hm
  | cons r R ih =>
    obtain ⟨h', e'⟩ := r
    have hl : i + ((h', e') :: R).length = i + 1 + R.length := by simp; omega
    rw [hl]
    cases e' with
    | zero =>
      simp only [repsOf] at hm
      have := ih (i + 1) hm; omega
    | succ e' =>
      simp only [repsOf, List.mem_cons] at hm
      rcases hm with rfl | hm
      · simp only; omega
      · have := ih (i + 1) hm; omega

theorem spell_append (R S : Runs) : spell (R ++ S) = spell R ++ spell S := by
  induction R with
  | nil => rfl
  | cons r R ih => obtain ⟨h, e⟩ := r; simp [spell, ih]

theorem count_repsOf (R : Runs) (i : Nat) :
    (repsOf i R).foldl (fun (c : Int) m => if m.times > 0 then c + m.times else c) 0 + R.length = (spell R).length := by
  have gen : ∀ (l : List MoreTime) (a : Int),
      l.foldl (fun (c : Int) m => if m.times > 0 then c + m.times else c) a =
        a + l.foldl (fun (c : Int) m => if m.times > 0 then c + m.times else c) 0 := by
    intro l
    induction l with
    | nil => intro a; simp
    | cons m l ih =>
      intro a
      simp only [List.foldl_cons]
      rw [ih, ih (if m.times > 0 then 0 + m.times else 0)]
      split <;> omega
  induction R generalizing i with
  | nil => simp [repsOf, spell]
  | cons r R ih =>
    obtain ⟨h, e⟩ := r
    have := ih (i + 1)
    cases e with
    | zero => simp only [repsOf, spell, List.length_append, List.length_replicate, List.length_cons]; omega
    | succ e =>
      simp only [repsOf, spell, List.length_append, List.length_replicate, List.length_cons, List.foldl_cons]
      rw [gen]
      have hp : ((e + 1 : Nat) : Int) > 0 := by omega
      simp only [hp, if_true]
      omega

/-- The hash iteration recovers the runs. -/
theorem hashsIterate_runs (R : Runs) (i : Nat) (c : MoreTime) (ms : List MoreTime)
    (hinv : (c.index < i ∧ ms = repsOf i R) ∨ ((i : Int) ≤ c.index ∧ c :: ms = repsOf i R)) :
    hashsIterate i c ms (R.map Prod.fst) = some (R.map (fun r => (r.1, r.2 + 1))) := by
  induction R generalizing i c ms with
  | nil => rfl
  | cons r R ih =>
    obtain ⟨h, e⟩ := r
    simp only [List.map_cons, hashsIterate]
    have hvalid : ∀ m ∈ repsOf (i + 1) R, m.valid = true ∧ (i : Int) < m.index := by
      intro m hm
      have := repsOf_mem R (i + 1) m hm
      constructor
      · simp only [MoreTime.valid, Bool.and_eq_true, decide_eq_true_eq]; omega
      · omega
    cases e with
    | zero =>
      simp only [repsOf] at hinv
      -- after the inner loop the cursor is not at `i`
      have hadv : ∃ c' ms', advance i c ms = some (c', ms') ∧ c'.index ≠ i ∧
          ((c'.index < ((i + 1 : Nat) : Int) ∧ ms' = repsOf (i + 1) R) ∨
            (((i + 1 : Nat) : Int) ≤ c'.index ∧ c' :: ms' = repsOf (i + 1) R)) := by
        rcases hinv with ⟨hc, rfl⟩ | ⟨hc, heq⟩
        · cases hr : repsOf (i + 1) R with
          | nil => exact ⟨c, [], by simp [advance], by omega, Or.inl ⟨by omega, rfl⟩⟩
          | cons m l =>
            obtain ⟨hv, hi⟩ := hvalid m (by rw [hr]; simp)
            refine ⟨m, l, ?_, by omega, Or.inr ⟨by omega, rfl⟩⟩
            have h1 : (i : Int) > c.index := by omega
            simp only [advance, h1, if_true, hv]
            cases l with
            | nil => simp [advance]
            | cons m' l' =>
              have h2 : ¬ ((i : Int) > m.index) := by omega
              simp [advance, h2]
        · have hm : c ∈ repsOf (i + 1) R := by rw [← heq]; simp
          obtain ⟨hv, hi⟩ := hvalid c hm
          refine ⟨c, ms, ?_, by omega, Or.inr ⟨by omega, heq⟩⟩
          cases ms with
          | nil => simp [advance]
          | cons m' l' =>
            have h2 : ¬ ((i : Int) > c.index) := by omega
            simp [advance, h2]
      obtain ⟨c', ms', ha, hne, hinv'⟩ := hadv
      rw [ha]
      have hii : ((i : Int) + 1) = ((i + 1 : Nat) : Int) := by omega
      simp only [hii]
      rw [ih (i + 1) c' ms' hinv']
      simp [hne]
    | succ e =>
      simp only [repsOf] at hinv
      have hadv : advance i c ms = some (⟨i, (e + 1 : Nat)⟩, repsOf (i + 1) R) := by
        rcases hinv with ⟨hc, rfl⟩ | ⟨hc, heq⟩
        · have h1 : (i : Int) > c.index := by omega
          have hv : (MoreTime.mk i (e + 1 : Nat)).valid = true := by
            simp only [MoreTime.valid, Bool.and_eq_true, decide_eq_true_eq]; omega
          simp only [advance, h1, if_true, hv]
          cases repsOf (i + 1) R with
          | nil => simp [advance]
          | cons m' l' => simp [advance]
        · simp only [List.cons.injEq] at heq
          obtain ⟨rfl, rfl⟩ := heq
          cases repsOf (i + 1) R with
          | nil => simp [advance]
          | cons m' l' => simp [advance]
      rw [hadv]
      have hii : ((i : Int) + 1) = ((i + 1 : Nat) : Int) := by omega
      simp only [hii]
      rw [ih (i + 1) ⟨i, (e + 1 : Nat)⟩ (repsOf (i + 1) R) (Or.inl ⟨by simp only; omega, rfl⟩)]
      simp only [if_true, Option.some.injEq, List.cons.injEq, Prod.mk.injEq, and_true, true_and]
      omega

/-- Expanding the runs numbers the spelled list. -/
theorem expand_runs (p : Proofs) (R : Runs) (k : Nat) :
    expand p k (R.map (fun r => (r.1, r.2 + 1))) =
      ((spell R).zipIdx k).map (fun x => (x.1, p.order x.2)) := by
  have hrep : ∀ (h : Bytes) (n k : Nat),
      (List.range n).map (fun j => (h, p.order (k + j))) =
        ((List.replicate n h).zipIdx k).map (fun x => (x.1, p.order x.2)) := by
    intro h n
    induction n with
    | zero => intro k; rfl
    | succ n ih =>
      intro k
      rw [List.range_succ_eq_map, List.replicate_succ, List.zipIdx_cons, List.map_cons, List.map_cons, ← ih (k + 1),
        List.map_map]
      simp only [Nat.add_zero, List.cons.injEq, true_and]
      apply List.map_congr_left
      intro a _
      simp only [Function.comp]
      congr 2; omega
  induction R generalizing k with
  | nil => rfl
  | cons r R ih =>
    obtain ⟨h, e⟩ := r
    simp only [List.map_cons, expand, spell, List.zipIdx_append, List.map_append, List.length_replicate]
    rw [hrep, ih]

/-- What a proof object stands for after a sequence of appends. -/
structure Rep (p : Proofs) (L : List (Bytes × Bool)) : Prop where
  runs : ∃ R : Runs, p.hashs = R.map Prod.fst ∧ p.repeats.list = repsOf 0 R ∧
    (p.repeats = some [] → False) ∧ spell R = L.map Prod.fst
  paths : ∀ i, p.paths.testBit i = (L[i]?.map Prod.snd).getD false

theorem Rep.new : Rep newProofs [] :=
  ⟨⟨[], rfl, rfl, (by intro h; cases h), rfl⟩, by intro i; simp [newProofs]⟩

theorem Rep.len {p : Proofs} {L : List (Bytes × Bool)} (h : Rep p L) : p.len = L.length := by
  obtain ⟨R, h1, h2, _, h4⟩ := h.runs
  have hc := count_repsOf R 0
  rw [h4] at hc
  have hl : p.hashs.length = R.length := by rw [h1]; simp
  simp only [Proofs.len, MoreTimes.count, h2, hl]
  simp only [List.length_map] at hc
  omega

theorem Rep.append {p : Proofs} {L : List (Bytes × Bool)} (hr : Rep p L) (h : Bytes) (o : Bool) :
    Rep (p.append h o) (L ++ [(h, o)]) := by
  obtain ⟨R, h1, h2, h3, h4⟩ := hr.runs
  -- the state before the path bit is set
  have key : ∃ p1 : Proofs, p1.paths = p.paths ∧
      (∃ R : Runs, p1.hashs = R.map Prod.fst ∧ p1.repeats.list = repsOf 0 R ∧
        (p1.repeats = some [] → False) ∧ spell R = (L ++ [(h, o)]).map Prod.fst) ∧
      p.append h o = if o then { p1 with paths := p1.paths ||| 2 ^ ((p1.hashs.length : Int) + p1.repeats.count - 1).toNat }
        else p1 := by
    by_cases hl : p.hashs.getLast? = some h
    · refine ⟨{ p with repeats := p.repeats.append ((p.hashs.length : Int) - 1) }, rfl, ?_, ?_⟩
      · -- the last run is extended
        rcases List.eq_nil_or_concat R with rfl | ⟨R', r, rfl⟩
        · simp [h1] at hl
        · obtain ⟨h', e⟩ := r
          have hh : h' = h := by
            rw [h1] at hl; simp at hl; exact hl
          subst hh
          simp only [List.concat_eq_append] at *
          have hlen : ((p.hashs.length : Int) - 1) = (R'.length : Int) := by rw [h1]; simp
          refine ⟨R' ++ [(h', e + 1)], ?_, ?_, ?_, ?_⟩
          · simp only [h1, List.map_append, List.map_cons, List.map_nil]
          · have hneg : ¬ ((R'.length : Int) < 0) := by omega
            simp only [hlen, MoreTimes.append, hneg, if_false, h2, repsOf_append, Nat.zero_add, Nat.succ_ne_zero]
            cases e with
            | zero =>
              simp only [if_true, List.append_nil]
              cases hlast : (repsOf 0 R').getLast? with
              | none =>
                have : repsOf 0 R' = [] := List.getLast?_eq_none_iff.mp hlast
                simp [this, MoreTimes.list]
              | some last =>
                have hm := repsOf_mem R' 0 last (List.mem_of_getLast? hlast)
                have hne : ¬ (last.index = (R'.length : Int)) := by omega
                have hlt : last.index < (R'.length : Int) := by omega
                simp [hne, hlt, MoreTimes.list]
            | succ e => simp [MoreTimes.list]
          · have hneg : ¬ ((R'.length : Int) < 0) := by omega
            simp only [hlen, MoreTimes.append, hneg, if_false]
            intro hc
            split at hc
            · simp at hc
            · split at hc
              · simp at hc
              · split at hc
                · simp at hc
                · exact h3 hc
          · rw [spell_append] at h4 ⊢
            rw [List.map_append, ← h4]
            simp [spell, List.replicate_succ']
      · unfold Proofs.append; simp only [hl, if_true]
    · refine ⟨{ p with hashs := p.hashs ++ [h] }, rfl, ⟨R ++ [(h, 0)], ?_, ?_, h3, ?_⟩, ?_⟩
      · simp [h1]
      · simp [h2, repsOf_append]
      · rw [spell_append, h4]; simp [spell]
      · unfold Proofs.append; simp only [hl, if_false]
  obtain ⟨p1, hp1, hruns, happ⟩ := key
  have hlen1 : p1.hashs.length + p1.repeats.count = (L.length : Int) + 1 := by
    obtain ⟨R1, g1, g2, _, g4⟩ := hruns
    have hc := count_repsOf R1 0
    rw [g4] at hc
    simp only [MoreTimes.count, g2]
    have : p1.hashs.length = R1.length := by rw [g1]; simp
    simp only [List.length_map, List.length_append, List.length_singleton] at hc
    omega
  rw [happ]
  have hpos : ((p1.hashs.length : Int) + p1.repeats.count - 1).toNat = L.length := by omega
  have hget : ∀ i, ((L ++ [(h, o)])[i]?.map Prod.snd).getD false =
      if i = L.length then o else (L[i]?.map Prod.snd).getD false := by
    intro i
    rcases Nat.lt_trichotomy i L.length with hi | hi | hi
    · rw [List.getElem?_append_left hi]
      have : ¬ i = L.length := by omega
      simp [this]
    · subst hi; simp
    · have : ¬ i = L.length := by omega
      have h5 : L[i]? = none := List.getElem?_eq_none (by omega)
      have h6 : (L ++ [(h, o)])[i]? = none := List.getElem?_eq_none (by simp; omega)
      simp [this, h5, h6]
  cases o with
  | false =>
    simp only [Bool.false_eq_true, if_false]
    refine ⟨hruns, ?_⟩
    intro i
    rw [hp1, hr.paths i, hget]
    split
    · rename_i h; subst h
      simp
    · rfl
  | true =>
    simp only [if_true]
    refine ⟨hruns, ?_⟩
    intro i
    simp only [hpos, hp1, Nat.testBit_or, hr.paths i, Nat.testBit_two_pow, hget]
    by_cases hi : i = L.length
    · subst hi; simp
    · have : ¬ L.length = i := fun e => hi e.symm
      simp [hi, this]

theorem Rep.items {p : Proofs} {L : List (Bytes × Bool)} (h : Rep p L) : p.items = some L := by
  obtain ⟨R, h1, h2, _, h4⟩ := h.runs
  have := hashsIterate_runs R 0 ⟨-1, 0⟩ (repsOf 0 R) (Or.inl ⟨by simp, rfl⟩)
  simp only [Proofs.items, h1, h2]
  have h0 : ((0 : Nat) : Int) = 0 := rfl
  rw [h0] at this
  rw [this, Option.map_some, expand_runs, h4]
  congr 1
  apply List.ext_getElem?
  intro i
  simp only [List.getElem?_map, List.getElem?_zipIdx, Option.map_map, Nat.zero_add]
  cases hL : L[i]? with
  | none => rfl
  | some x =>
    have := h.paths i
    rw [hL] at this
    simp only [Option.map_some, Option.getD_some, Function.comp, Proofs.order, this]

/-- The index loop computes the position in the runs. -/
theorem hashsIndexLoop_runs (R : Runs) (i : Nat) (last : MoreTime) (B f : Int)
    (hval : last.valid = true ∨ (last.index = 0 ∧ B = 0)) (hle : last.index ≤ i) :
    (B + i - last.index ≤ f → hashsIndexLoop f last B (repsOf i R) = i + locate R (f - (B + i - last.index)).toNat) ∧
    (f < B + i - last.index → hashsIndexLoop f last B (repsOf i R) = f - B + last.index) := by
  have hb : ∀ m : MoreTime, border m last B = (B + m.index - last.index, B + m.index - last.index + m.times) := by
    intro m
    unfold border
    rcases hval with hv | ⟨h0, hB⟩
    · simp [hv]
    · split
      · rw [h0, hB]; simp
      · rfl
  induction R generalizing i last B with
  | nil =>
    simp only [repsOf, hashsIndexLoop, locate]
    refine ⟨fun h => by omega, fun _ => trivial⟩
  | cons r R ih =>
    obtain ⟨h', e⟩ := r
    cases e with
    | zero =>
      simp only [repsOf, locate]
      have := ih (i + 1) last B hval (by omega) hb
      obtain ⟨ih1, ih2⟩ := this
      constructor
      · intro hf
        by_cases heq : f = B + i - last.index
        · rw [ih2 (by omega)]
          have : (f - (B + i - last.index)).toNat = 0 := by omega
          simp only [this, Nat.le_refl, if_true]; omega
        · rw [ih1 (by omega)]
          have h1 : ¬ (f - (B + i - last.index)).toNat ≤ 0 := by omega
          have h2 : (f - (B + ((i + 1 : Nat) : Int) - last.index)).toNat = (f - (B + i - last.index)).toNat - 0 - 1 := by
            omega
          simp only [h1, if_false, h2]; omega
      · intro hf; exact ih2 (by omega)
    | succ e =>
      simp only [repsOf, locate, hashsIndexLoop, hb]
      constructor
      · intro hf
        have h1 : ¬ f < B + (i : Int) - last.index := by omega
        simp only [h1, if_false]
        by_cases h2 : f ≤ B + (i : Int) - last.index + ((e + 1 : Nat) : Int)
        · have h3 : (f - (B + i - last.index)).toNat ≤ e + 1 := by omega
          simp only [h2, h3, if_true]; omega
        · have h3 : ¬ (f - (B + i - last.index)).toNat ≤ e + 1 := by omega
          simp only [h2, h3, if_false]
          have hv : (MoreTime.mk (i : Int) ((e + 1 : Nat) : Int)).valid = true := by
            simp only [MoreTime.valid, Bool.and_eq_true, decide_eq_true_eq]; omega
          have := (ih (i + 1) ⟨i, (e + 1 : Nat)⟩ (B + (i : Int) - last.index + ((e + 1 : Nat) : Int)) (Or.inl hv)
            (by simp only; omega) (by
              intro m; unfold border; rw [hv]; rfl)).1 (by simp only; omega)
          simp only at this
          rw [this]
          have h4 : (f - (B + (i : Int) - last.index + ((e + 1 : Nat) : Int) + ((i + 1 : Nat) : Int) - (i : Int))).toNat =
              (f - (B + i - last.index)).toNat - (e + 1) - 1 := by omega
          rw [h4]; omega
      · intro hf
        have h1 : f < B + (i : Int) - last.index := by omega
        simp [h1]

theorem locate_spell (R : Runs) (g : Nat) : (spell R)[g]? = (R.map Prod.fst)[locate R g]? := by
  induction R generalizing g with
  | nil => simp [spell]
  | cons r R ih =>
    obtain ⟨h, e⟩ := r
    simp only [spell, locate, List.map_cons]
    by_cases hg : g ≤ e
    · rw [List.getElem?_append_left (by simp; omega)]
      simp only [hg, if_true, List.getElem?_cons_zero]
      rw [List.getElem?_replicate]; simp; omega
    · rw [List.getElem?_append_right (by simp; omega)]
      simp only [hg, if_false, List.length_replicate]
      rw [Nat.add_comm 1, List.getElem?_cons_succ, ← ih]
      congr 1

theorem Rep.get {p : Proofs} {L : List (Bytes × Bool)} (h : Rep p L) (f : Nat) : p.get f = L[f]? := by
  obtain ⟨R, h1, h2, _, h4⟩ := h.runs
  have hidx : p.repeats.hashsIndex f = locate R f := by
    unfold MoreTimes.hashsIndex
    rw [h2]
    have hl := (hashsIndexLoop_runs R 0 ⟨0, 0⟩ 0 f (Or.inr ⟨rfl, rfl⟩) (by simp)).1 (by simp)
    simp only [Int.zero_add] at hl
    have hz : ((0 : Nat) : Int) = 0 := rfl
    simp only [hz, Int.zero_add, Int.sub_zero, Int.toNat_natCast] at hl
    split
    · rename_i hc
      rcases hc with hc | hc
      · -- no repeats: the loop on the empty table
        have : repsOf 0 R = [] := List.length_eq_zero_iff.mp hc
        rw [this] at hl
        simp only [hashsIndexLoop] at hl
        omega
      · have : f = 0 := by omega
        subst this
        cases R with
        | nil => simp [locate]
        | cons r R => obtain ⟨a, b⟩ := r; simp [locate]
    · exact hl
  unfold Proofs.get
  have hneg : ¬ ((f : Int) < 0) := by omega
  simp only [hneg, if_false, hidx]
  have hs := locate_spell R f
  rw [h4, List.getElem?_map] at hs
  rw [h1]
  have hpath := h.paths f
  cases hL : L[f]? with
  | none =>
    rw [hL] at hs
    have hge : (R.map Prod.fst).length ≤ locate R f := List.getElem?_eq_none_iff.mp hs.symm
    have : ((locate R f : Nat) : Int) < 0 ∨ ((locate R f : Nat) : Int) ≥ (R.map Prod.fst).length := by omega
    simp only [this, if_true]
  | some x =>
    rw [hL] at hs hpath
    have hlt : locate R f < (R.map Prod.fst).length := by
      have hs' := hs.symm
      simp only [Option.map_some] at hs'
      exact (List.getElem?_eq_some_iff.mp hs').1
    have : ¬ (((locate R f : Nat) : Int) < 0 ∨ ((locate R f : Nat) : Int) ≥ (R.map Prod.fst).length) := by omega
    simp only [this, if_false, Int.toNat_natCast, ← hs, hpath, Option.map_some, Option.getD_some]

end Verif.Merkle

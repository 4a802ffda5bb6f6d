import Verif.Base
import Mathlib.Data.Nat.Find
import Mathlib.Data.List.Nodup
import Mathlib.Data.List.Perm.Subperm

/-!
# Fresh names

`ResolveNameConflict` and the loops that use it: for the fields of a tuple, the methods and the events of a contract.
-/

namespace Verif.Abi
open Verif

/-- `%d` of a natural number. -/
def dec (n : Nat) : Bytes := if _h : n < 10 then [UInt8.ofNat (48 + n)] else dec (n / 10) ++ [UInt8.ofNat (48 + n % 10)]
termination_by n
decreasing_by omega

/-- The loop of `ResolveNameConflict` (`/repo/abi/utils.go:36-39`): `none` if it is still running after `fuel` rounds. -/
def resolveLoop (raw : Bytes) (used : Bytes → Bool) : Nat → Nat → Option Bytes
  | 0, _ => none
  | fuel + 1, idx => if used (raw ++ dec idx) then resolveLoop raw used fuel (idx + 1) else some (raw ++ dec idx)

/-- `ResolveNameConflict` (`/repo/abi/utils.go:33-41`). -/
def resolveName (fuel : Nat) (raw : Bytes) (used : Bytes → Bool) : Option Bytes :=
  if used raw then resolveLoop raw used fuel 0 else some raw

/-- The loops that name things one after the other, each with a name not used before (`/repo/abi/type.go:162-190`,
`/repo/abi/abi.go:176-203`). -/
def resolveAll (fuel : Nat) : List Bytes → List Bytes → Option (List Bytes)
  | [], _ => some []
  | raw :: raws, used =>
    match resolveName fuel raw (fun s => used.contains s) with
    | none => none
    | some name => (resolveAll fuel raws (name :: used)).map (name :: ·)

/-! ### Decimal notation -/

def ofDec (b : Bytes) : Nat := b.foldl (fun a c => a * 10 + (c.toNat - 48)) 0

theorem digit_toNat (n : Nat) (h : n < 10) : (UInt8.ofNat (48 + n)).toNat = 48 + n := by
  rw [UInt8.toNat_ofNat']; omega

theorem ofDec_dec (n : Nat) : ofDec (dec n) = n := by
  induction n using Nat.strongRecOn with
  | ind n ih =>
    rw [dec]
    split
    · next h =>
      unfold ofDec
      simp only [List.foldl_cons, List.foldl_nil]
      rw [digit_toNat n h]
      omega
    · next h =>
      unfold ofDec
      rw [List.foldl_append]
      have := ih (n / 10) (by omega)
      unfold ofDec at this
      rw [this]
      simp only [List.foldl_cons, List.foldl_nil]
      rw [digit_toNat _ (by omega)]
      omega

theorem dec_inj {n m : Nat} (h : dec n = dec m) : n = m := by rw [← ofDec_dec n, h, ofDec_dec]

theorem dec_ne_nil (n : Nat) : dec n ≠ [] := by rw [dec]; split <;> simp

/-! ### Termination and freshness -/

theorem loop_some (raw : Bytes) (used : Bytes → Bool) (k : Nat) : ∀ idx fuel, k < fuel → used (raw ++ dec (idx + k)) = false →
    (∀ j, j < k → used (raw ++ dec (idx + j)) = true) → resolveLoop raw used fuel idx = some (raw ++ dec (idx + k)) := by
  induction k with
  | zero =>
    intro idx fuel hf h1 h2
    cases fuel with
    | zero => omega
    | succ f => rw [resolveLoop, if_neg (by rw [Nat.add_zero] at h1; simp [h1])]; rfl
  | succ k ih =>
    intro idx fuel hf h1 h2
    cases fuel with
    | zero => omega
    | succ f =>
      rw [resolveLoop, if_pos (by simpa using h2 0 (by omega)), ih (idx + 1) f (by omega)]
      · rw [Nat.add_right_comm, Nat.add_assoc]
      · rw [Nat.add_assoc, Nat.add_comm 1]; exact h1
      · intro j hj
        rw [Nat.add_assoc, Nat.add_comm 1]
        exact h2 (j + 1) (by omega)

/-- Among one more name than there are used names, one is free. -/
theorem exists_free (raw : Bytes) (l : List Bytes) : ∃ k, k ≤ l.length ∧ ¬ raw ++ dec k ∈ l := by
  by_contra h
  push Not at h
  have hsub : ((List.range (l.length + 1)).map fun k => raw ++ dec k) ⊆ l := by
    intro x hx
    simp only [List.mem_map, List.mem_range] at hx
    obtain ⟨k, hk, rfl⟩ := hx
    exact h k (by omega)
  have hnd : ((List.range (l.length + 1)).map fun k => raw ++ dec k).Nodup := by
    exact List.Nodup.map (fun a b hab => dec_inj (List.append_cancel_left hab)) List.nodup_range
  have := (List.subperm_of_subset hnd hsub).length_le
  simp at this
  omega

/-- **C79.**  For every finite set of used names the loop ends, with at most one more round than there are names; the result is free;
it is the given name if that is free, else the given name with the least number that makes it free. -/
theorem C79_fresh (raw : Bytes) (used : Bytes → Bool) (l : List Bytes) (hl : ∀ s, used s = true → s ∈ l) (fuel : Nat)
    (hf : l.length < fuel) :
    ∃ name, resolveName fuel raw used = some name ∧ used name = false ∧ (used raw = false → name = raw) ∧
      (used raw = true → ∃ k, name = raw ++ dec k ∧ ∀ j, j < k → used (raw ++ dec j) = true) := by
  unfold resolveName
  cases hr : used raw
  · exact ⟨raw, by simp, hr, fun _ => rfl, fun h => by cases h⟩
  · obtain ⟨k, hk, hn⟩ := exists_free raw l
    have hex : ∃ k, used (raw ++ dec k) = false := ⟨k, by
      cases h : used (raw ++ dec k)
      · rfl
      · exact absurd (hl _ h) hn⟩
    have hspec := Nat.find_spec hex
    have hle : Nat.find hex ≤ k := Nat.find_min' hex (by
      cases h : used (raw ++ dec k)
      · rfl
      · exact absurd (hl _ h) hn)
    have h2 : ∀ j, j < Nat.find hex → used (raw ++ dec j) = true := fun j hj => by
      have := Nat.find_min hex hj
      simpa using this
    refine ⟨raw ++ dec (Nat.find hex), ?_, hspec, (fun h => by cases h), fun _ => ⟨_, rfl, h2⟩⟩
    have := loop_some raw used (Nat.find hex) 0 fuel (by omega) (by rw [Nat.zero_add]; exact hspec)
      (fun j hj => by rw [Nat.zero_add]; exact h2 j hj)
    rw [Nat.zero_add] at this
    simpa using this

/-- **C79.**  Naming a list of things gives distinct names that were not in use, each one the raw name with nothing or a number
behind it. -/
theorem C79_distinct (raws used : List Bytes) (fuel : Nat) (hf : used.length + raws.length < fuel + 1) :
    ∃ names, resolveAll fuel raws used = some names ∧ names.Nodup ∧ (∀ n ∈ names, ¬ n ∈ used) ∧
      List.Forall₂ (fun raw name => name = raw ∨ ∃ k, name = raw ++ dec k) raws names := by
  induction raws generalizing used with
  | nil => exact ⟨[], rfl, List.nodup_nil, by simp, List.Forall₂.nil⟩
  | cons raw raws ih =>
    simp only [List.length_cons] at hf
    obtain ⟨name, h1, h2, h3, h4⟩ := C79_fresh raw (fun s => used.contains s) used (fun s hs => by simpa using hs) fuel (by omega)
    obtain ⟨names, g1, g2, g3, g4⟩ := ih (name :: used) (by simp; omega)
    refine ⟨name :: names, ?_, ?_, ?_, ?_⟩
    · rw [resolveAll, h1]
      simp only
      rw [g1]
      rfl
    · refine List.nodup_cons.mpr ⟨fun hm => ?_, g2⟩
      exact g3 name hm (by simp)
    · intro n hn
      rcases List.mem_cons.mp hn with rfl | hn
      · simpa using h2
      · exact fun hu => g3 n hn (List.mem_cons_of_mem _ hu)
    · refine List.Forall₂.cons ?_ g4
      cases hu : used.contains raw
      · exact Or.inl (h3 hu)
      · obtain ⟨k, hk, _⟩ := h4 hu
        exact Or.inr ⟨k, hk⟩

/-- `send`, `send0` used: `send` becomes `send1`. -/
example : resolveName 3 [115] (fun s => [[115], [115, 48]].contains s) = some [115, 49] := by
  simp [resolveName, resolveLoop, dec]

/-- **C79.**  With infinitely many used names the loop does not end. -/
theorem C79_finite_needed (raw : Bytes) (fuel : Nat) : resolveName fuel raw (fun _ => true) = none := by
  have : ∀ idx, resolveLoop raw (fun _ => true) fuel idx = none := by
    induction fuel with
    | zero => intro _; rfl
    | succ f ih => intro idx; simp [resolveLoop, ih]
  simp [resolveName, this]

end Verif.Abi

import Verif.Sorted

/-!
# Imports and variables of a generated file: C160

`genContext` of `rlpgen` (`/repo/rlp/rlpgen/gen.go:94-146`) hands out the names of variables and collects the packages to be imported,
while types are printed (`qualify`) and the texts of the methods are put together (`/repo/rlp/rlpgen/gen.go:732-801`).
-/

namespace Verif.Rlp.GenFile
open Verif

/-- `*types.Package`. -/
structure Package where
  path : Bytes
  name : Bytes
  deriving DecidableEq

/-- `genContext` (`/repo/rlp/rlpgen/gen.go:97-101`); the keys of the map `imports` in some order. -/
structure Ctx where
  own : Bytes
  imports : List Bytes := []
  counter : Nat := 0

/-- The variables of one function are `_tmp0`, `_tmp1`, …: `temp` (`/repo/rlp/rlpgen/gen.go:110-114`). -/
def Ctx.temp (c : Ctx) : String × Ctx := ("_tmp" ++ toString c.counter, { c with counter := c.counter + 1 })

/-- `resetTemp` (`/repo/rlp/rlpgen/gen.go:116-118`). -/
def Ctx.reset (c : Ctx) : Ctx := { c with counter := 0 }

/-- `addImport` (`/repo/rlp/rlpgen/gen.go:120-126`). -/
def Ctx.addImport (c : Ctx) (path : Bytes) : Ctx :=
  if path = c.own then c else if path ∈ c.imports then c else { c with imports := path :: c.imports }

/-- `qualify` (`/repo/rlp/rlpgen/gen.go:139-146`): what stands before the dot. -/
def Ctx.qualify (c : Ctx) (p : Package) : Bytes × Ctx := if p.path = c.own then ([], c) else (p.name, c.addImport p.path)

/-- `importsList` (`/repo/rlp/rlpgen/gen.go:129-136`). -/
def Ctx.importsList (c : Ctx) : List Bytes := sortCmp bytesCompare c.imports

/-- A call while the file is generated. -/
inductive Call where
  | temp
  | addImport (path : Bytes)
  | qualify (p : Package)
  | reset

def Ctx.call (c : Ctx) : Call → Ctx
  | .temp => c.temp.2
  | .addImport p => c.addImport p
  | .qualify p => (c.qualify p).2
  | .reset => c.reset

def Ctx.run (c : Ctx) (l : List Call) : Ctx := l.foldl Ctx.call c

/-- The names handed out. -/
def Ctx.temps (c : Ctx) : List Call → List String
  | [] => []
  | .temp :: l => c.temp.1 :: c.temp.2.temps l
  | x :: l => (c.call x).temps l

/-- A call that asks for a package. -/
def Asks (path : Bytes) : Call → Prop
  | .addImport p => p = path
  | .qualify p => p.path = path
  | _ => False

/-! ### Proofs -/

theorem addImport_rest (c : Ctx) (p : Bytes) : (c.addImport p).own = c.own ∧ (c.addImport p).counter = c.counter := by
  unfold Ctx.addImport
  split
  · exact ⟨rfl, rfl⟩
  · split <;> exact ⟨rfl, rfl⟩

theorem qualify_rest (c : Ctx) (p : Package) : (c.qualify p).2.own = c.own ∧ (c.qualify p).2.counter = c.counter := by
  unfold Ctx.qualify
  split
  · exact ⟨rfl, rfl⟩
  · exact addImport_rest c p.path

theorem call_own (c : Ctx) (x : Call) : (c.call x).own = c.own := by
  cases x with
  | temp => rfl
  | reset => rfl
  | addImport p => exact (addImport_rest c p).1
  | qualify p => exact (qualify_rest c p).1

theorem run_own (l : List Call) (c : Ctx) : (c.run l).own = c.own := by
  induction l generalizing c with
  | nil => rfl
  | cons x l ih => exact (ih _).trans (call_own c x)

theorem mem_addImport (c : Ctx) (p q : Bytes) : q ∈ (c.addImport p).imports ↔ q ∈ c.imports ∨ (q = p ∧ p ≠ c.own) := by
  unfold Ctx.addImport
  split
  · rename_i h; simp [h]
  · rename_i h
    split
    · rename_i h2
      constructor
      · exact .inl
      · rintro (h3 | ⟨rfl, _⟩)
        · exact h3
        · exact h2
    · simp [h, or_comm]

theorem mem_call (c : Ctx) (x : Call) (q : Bytes) : q ∈ (c.call x).imports ↔ q ∈ c.imports ∨ (Asks q x ∧ q ≠ c.own) := by
  cases x with
  | temp => simp [Ctx.call, Ctx.temp, Asks]
  | reset => simp [Ctx.call, Ctx.reset, Asks]
  | addImport p =>
    rw [Ctx.call, mem_addImport]
    simp only [Asks]
    constructor
    · rintro (h | ⟨rfl, h⟩)
      · exact .inl h
      · exact .inr ⟨rfl, h⟩
    · rintro (h | ⟨rfl, h⟩)
      · exact .inl h
      · exact .inr ⟨rfl, h⟩
  | qualify p =>
    rw [Ctx.call, Ctx.qualify]
    simp only [Asks]
    split
    · rename_i h
      constructor
      · exact .inl
      · rintro (h2 | ⟨rfl, h2⟩)
        · exact h2
        · exact absurd h h2
    · rw [mem_addImport]
      constructor
      · rintro (h | ⟨rfl, h⟩)
        · exact .inl h
        · exact .inr ⟨rfl, h⟩
      · rintro (h | ⟨rfl, h⟩)
        · exact .inl h
        · exact .inr ⟨rfl, h⟩

theorem mem_run (l : List Call) (c : Ctx) (q : Bytes) :
    q ∈ (c.run l).imports ↔ q ∈ c.imports ∨ (q ≠ c.own ∧ ∃ x ∈ l, Asks q x) := by
  induction l generalizing c with
  | nil => simp [Ctx.run]
  | cons x l ih =>
    have := ih (c.call x)
    rw [show c.run (x :: l) = (c.call x).run l from rfl, this, mem_call, call_own]
    simp only [List.mem_cons, exists_eq_or_imp]
    constructor
    · rintro ((h | ⟨h, h2⟩) | ⟨h, h2⟩)
      · exact .inl h
      · exact .inr ⟨h2, .inl h⟩
      · exact .inr ⟨h, .inr h2⟩
    · rintro (h | ⟨h, h2 | h2⟩)
      · exact .inl (.inl h)
      · exact .inl (.inr ⟨h2, h⟩)
      · exact .inr ⟨h, h2⟩

theorem nodup_addImport {c : Ctx} (h : c.imports.Nodup) (p : Bytes) : (c.addImport p).imports.Nodup := by
  unfold Ctx.addImport
  split
  · exact h
  · split
    · exact h
    · rename_i h2; exact List.nodup_cons.mpr ⟨h2, h⟩

theorem nodup_run (l : List Call) {c : Ctx} (h : c.imports.Nodup) : (c.run l).imports.Nodup := by
  induction l generalizing c with
  | nil => exact h
  | cons x l ih =>
    refine ih (c := c.call x) ?_
    cases x with
    | temp => exact h
    | reset => exact h
    | addImport p => exact nodup_addImport h p
    | qualify p =>
      rw [Ctx.call, Ctx.qualify]
      split
      · exact h
      · exact nodup_addImport h _

theorem temp_inj {m n : Nat} (h : "_tmp" ++ toString m = "_tmp" ++ toString n) : m = n := by
  have h1 : toString m = toString n := by
    have := congrArg String.toList h
    rw [String.toList_append, String.toList_append] at this
    exact String.toList_inj.mp (List.append_cancel_left this)
  have h2 : Nat.toDigits 10 m = Nat.toDigits 10 n := by
    have := congrArg String.toList h1
    simpa [Nat.repr, ToString.toString] using this
  have := congrArg (Nat.ofDigitChars 10 · 0) h2
  simpa [Nat.ofDigitChars_toDigits] using this

theorem temps_ge : ∀ (l : List Call) (c : Ctx), Call.reset ∉ l → ∀ s ∈ c.temps l, ∃ n, c.counter ≤ n ∧ s = "_tmp" ++ toString n := by
  intro l
  induction l with
  | nil => intro c _ s h; cases h
  | cons x l ih =>
    intro c hr s h
    have hl : Call.reset ∉ l := fun h => hr (List.mem_cons_of_mem _ h)
    cases x with
    | temp =>
      rcases List.mem_cons.mp h with rfl | h
      · exact ⟨c.counter, Nat.le_refl _, rfl⟩
      · obtain ⟨n, h1, h2⟩ := ih _ hl s h
        exact ⟨n, Nat.le_of_succ_le h1, h2⟩
    | reset => exact absurd (by simp) hr
    | addImport p =>
      obtain ⟨n, h1, h2⟩ := ih _ hl s h
      refine ⟨n, ?_, h2⟩
      rwa [Ctx.call, (addImport_rest c p).2] at h1
    | qualify p =>
      obtain ⟨n, h1, h2⟩ := ih _ hl s h
      refine ⟨n, ?_, h2⟩
      rwa [Ctx.call, (qualify_rest c p).2] at h1

/-! ### C160 -/

/-- **C160.** The imports of a file are sorted without repetition, and they are the packages asked for, except the own one; so they
depend neither on the order of the calls nor on the order of the map. -/
theorem C160_imports (own : Bytes) (l : List Call) :
    StrictSorted bytesCompare (({ own := own } : Ctx).run l).importsList ∧
      ∀ q, q ∈ (({ own := own } : Ctx).run l).importsList ↔ q ≠ own ∧ ∃ x ∈ l, Asks q x := by
  refine ⟨strictSorted_sortCmp bytesCompare_lawful (nodup_run l List.nodup_nil), fun q => ?_⟩
  rw [Ctx.importsList, mem_sortCmp, mem_run]
  simp

/-- **C160.** What is written before the dot is nothing for types of the own package, and otherwise the name of a package that the file
imports, whatever is called before and after. -/
theorem C160_qualify (own : Bytes) (l r : List Call) (p : Package) :
    let c := ({ own := own } : Ctx).run l
    (p.path = own ∧ (c.qualify p).1 = []) ∨
      (p.path ≠ own ∧ (c.qualify p).1 = p.name ∧ p.path ∈ (({ own := own } : Ctx).run (l ++ .qualify p :: r)).importsList) := by
  intro c
  have ho : c.own = own := run_own l _
  by_cases h : p.path = own
  · left
    refine ⟨h, ?_⟩
    rw [Ctx.qualify, ho, if_pos h]
  · right
    refine ⟨h, ?_, ?_⟩
    · rw [Ctx.qualify, ho, if_neg h]
    · exact ((C160_imports own _).2 _).mpr ⟨h, .qualify p, by simp, rfl⟩

/-- **C160.** All variables of a function are different. -/
theorem C160_temps (c : Ctx) (l : List Call) (hr : Call.reset ∉ l) : (c.temps l).Nodup := by
  induction l generalizing c with
  | nil => exact List.nodup_nil
  | cons x l ih =>
    have hl : Call.reset ∉ l := fun h => hr (List.mem_cons_of_mem _ h)
    cases x with
    | temp =>
      refine List.nodup_cons.mpr ⟨?_, ih _ hl⟩
      intro h
      obtain ⟨n, h1, h2⟩ := temps_ge l _ hl _ h
      have := temp_inj h2
      have h1 : c.counter + 1 ≤ n := h1
      omega
    | reset => exact absurd (by simp) hr
    | addImport p => exact ih _ hl
    | qualify p => exact ih _ hl

/-! ### Witnesses -/

/-- `a/x` and `b/x`, both packages `x` -/
def ax : Package := ⟨[97, 47, 120], [120]⟩
def bx : Package := ⟨[98, 47, 120], [120]⟩

example : (({ own := [99] } : Ctx).run [.qualify bx, .temp, .addImport [97], .qualify ⟨[99], [99]⟩, .qualify bx]).importsList =
    [[97], [98, 47, 120]] := by decide +kernel
example : ({ own := [99] } : Ctx).temps [.temp, .qualify ax, .temp] = ["_tmp0", "_tmp1"] := by decide +kernel

/-- **C160, where it ends.** Types of two packages with the same name are written alike, and the file imports both under that name: it is
no Go program. -/
theorem C160_sameName_refuted : ax ≠ bx ∧ (({ own := [99] } : Ctx).qualify ax).1 = ((({ own := [99] } : Ctx).qualify ax).2.qualify bx).1 ∧
    (({ own := [99] } : Ctx).run [.qualify ax, .qualify bx]).importsList = [ax.path, bx.path] := by decide +kernel

end Verif.Rlp.GenFile

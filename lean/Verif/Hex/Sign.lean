import Verif.Hex.Text

/-!
# The sign of decimal and hexadecimal texts: C120
-/

namespace Verif.Hex

/-- The first digit of a decimal form is not a minus. -/
theorem decDigits_head (n : Nat) : (decDigits n).head? ≠ some 45 ∧ decDigits n ≠ [] := by
  have h10 : ∀ d < 10, hexChar d ≠ 45 := by decide
  induction n using Nat.strongRecOn with
  | _ n ih =>
    rw [decDigits]
    split
    · rename_i h
      exact ⟨by simpa using h10 n h, by simp⟩
    · obtain ⟨h1, h2⟩ := ih (n / 10) (by omega)
      refine ⟨?_, by simp⟩
      rw [List.head?_append_of_ne_nil _ h2]
      exact h1

/-- **C120.** The text of a number begins with a minus exactly if the number is negative: zero has none. -/
theorem C120_sign (z : Int) : ((marshalDec256 (some z)).head? = some 45 ↔ z < 0) ∧ ((marshalHex256 (some z)).head? = some 45 ↔ z < 0) := by
  refine ⟨?_, ?_⟩
  · rw [marshalDec256]
    split
    · rename_i h; simp [h]
    · rename_i h; simp [h, (decDigits_head z.natAbs).1]
  · rw [marshalHex256]
    split
    · rename_i h; simp [h]
    · rename_i h; simp [h]

/-- Zero and a negative number. -/
example : marshalDec256 (some 0) = [48] ∧ marshalDec256 (some (-7)) = [45, 55] := by decide +kernel

end Verif.Hex

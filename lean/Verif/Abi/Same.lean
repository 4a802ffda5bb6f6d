import Verif.Abi.Set

/-!
# The types that are the same: C127
-/

namespace Verif.Abi.Set

mutual
theorem same_refl : ∀ t : GTy, same t t = true
  | .u8 | .str | .big | .iface => by simp [same]
  | .other _ => by simp [same]
  | .slice e => by simp [same, same_refl e]
  | .array _ e => by simp [same, same_refl e]
  | .struct _ _ ts => by simp [same, sames_refl ts]
  | .ptr e => by simp [same, same_refl e]
theorem sames_refl : ∀ l : List GTy, sames l l = true
  | [] => by simp [sames]
  | t :: l => by simp [sames, same_refl t, sames_refl l]
end

mutual
theorem same_eq : ∀ s t : GTy, same s t = true → s = t
  | .u8, t, h => by cases t <;> simp_all [same]
  | .str, t, h => by cases t <;> simp_all [same]
  | .big, t, h => by cases t <;> simp_all [same]
  | .iface, t, h => by cases t <;> simp_all [same]
  | .other _, t, h => by cases t <;> simp_all [same]
  | .slice e, t, h => by
    cases t <;> simp only [same, Bool.false_eq_true] at h
    rw [same_eq e _ h]
  | .array _ e, t, h => by
    cases t <;> simp only [same, Bool.false_eq_true, Bool.and_eq_true, beq_iff_eq] at h
    rw [same_eq e _ h.2, h.1]
  | .struct _ _ ts, t, h => by
    cases t <;> simp only [same, Bool.false_eq_true, Bool.and_eq_true, beq_iff_eq] at h
    rw [sames_eq ts _ h.2, h.1.1, h.1.2]
  | .ptr e, t, h => by
    cases t <;> simp only [same, Bool.false_eq_true] at h
    rw [same_eq e _ h]
theorem sames_eq : ∀ l m : List GTy, sames l m = true → l = m
  | [], m, h => by cases m <;> simp_all [sames]
  | t :: l, m, h => by
    cases m <;> simp only [sames, Bool.false_eq_true, Bool.and_eq_true] at h
    rw [same_eq t _ h.1, sames_eq l _ h.2]
end

/-- **C127.** A type is taken for another exactly if they are equal, and every value can be assigned to a variable of its own type. -/
theorem C127_types (s t : GTy) : (same s t = true ↔ s = t) ∧ assignable s s = true := by
  refine ⟨⟨same_eq s t, fun h => h ▸ same_refl s⟩, ?_⟩
  cases s <;> simp [assignable, same, same_refl, sames_refl]

/-- Structs with fields. -/
example : same (.struct (some 1) [[1], [2]] [.u8, .ptr .big]) (.struct (some 1) [[1], [2]] [.u8, .ptr .big]) = true ∧
    same (.struct (some 1) [[1]] [.u8]) (.struct none [[1]] [.u8]) = false ∧
    assignable (.struct (some 1) [[1]] [.u8]) (.struct none [[1]] [.u8]) = true := by simp [same, sames, assignable]

end Verif.Abi.Set

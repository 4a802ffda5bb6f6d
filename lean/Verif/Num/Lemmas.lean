import Verif.Num.Model

namespace Verif.Num
open Verif

theorem maxU64_toNat : maxU64.toNat = 2 ^ 64 - 1 := rfl
theorem nilU64_toNat : nilU64.toNat = 2 ^ 64 - 1 := rfl

theorem u64_lt (x : UInt64) : x.toNat < 2 ^ 64 := x.toNat_lt

theorem max_sub_toNat (x : UInt64) : (maxU64 - x).toNat = 2 ^ 64 - 1 - x.toNat := by
  have h := u64_lt x
  rw [UInt64.toNat_sub, maxU64_toNat]
  omega

theorem safeAdd_flag (x y : UInt64) : (safeAdd x y).2 = true ↔ 2 ^ 64 ≤ x.toNat + y.toNat := by
  have hx := u64_lt x
  have hy := u64_lt y
  simp only [safeAdd, decide_eq_true_eq, gt_iff_lt, UInt64.lt_iff_toNat_lt, max_sub_toNat]
  omega

theorem safeAdd_word (x y : UInt64) : (safeAdd x y).1.toNat = (x.toNat + y.toNat) % 2 ^ 64 := by
  simp [safeAdd, UInt64.toNat_add]

theorem safeMul_flag (x y : UInt64) : (safeMul x y).2 = true ↔ 2 ^ 64 ≤ x.toNat * y.toNat := by
  have hx := u64_lt x
  have hy := u64_lt y
  unfold safeMul
  by_cases h : (x == 0 || y == 0) = true
  · simp only [h, if_true]
    simp only [Bool.or_eq_true, beq_iff_eq] at h
    rcases h with rfl | rfl <;> simp
  · simp only [h]
    simp only [Bool.or_eq_true, beq_iff_eq, not_or] at h
    have hx0 : 0 < x.toNat := by
      have : x.toNat ≠ 0 := fun hc => h.1 (UInt64.toNat_inj.mp (by simpa using hc))
      omega
    simp only [gt_iff_lt, Bool.false_eq_true, if_false, decide_eq_true_eq, UInt64.lt_iff_toNat_lt, UInt64.toNat_div,
      maxU64_toNat]
    rw [Nat.div_lt_iff_lt_mul hx0, Nat.mul_comm]
    omega

theorem safeMul_word (x y : UInt64) : (safeMul x y).1.toNat = (x.toNat * y.toNat) % 2 ^ 64 := by
  unfold safeMul
  by_cases h : (x == 0 || y == 0) = true
  · simp only [h, if_true]
    simp only [Bool.or_eq_true, beq_iff_eq] at h
    rcases h with rfl | rfl <;> simp
  · simp only [h]
    simp [UInt64.toNat_mul]

theorem eq_nil_iff (h : UInt64) : (h == nilU64) = true ↔ h.toNat = 2 ^ 64 - 1 := by
  rw [beq_iff_eq]
  constructor
  · rintro rfl; rfl
  · intro hh; exact UInt64.toNat_inj.mp (by rw [hh]; rfl)

end Verif.Num

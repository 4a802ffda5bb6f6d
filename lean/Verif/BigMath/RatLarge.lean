import Verif.BigMath.Rat64

/-!
# Large rational numbers as integers: C129
-/

namespace Verif.Rat64

/-- The nearest double of a number that is not small is at most a quarter of it away. -/
theorem nearest_half (q : ℚ) (h : 1 ≤ |q|) : |nearest q - q| ≤ |q| / 4 := by
  have h0 : 0 ≤ Int.log 2 |q| := by
    have := Int.log_mono_right (b := 2) (by norm_num : (0 : ℚ) < 1) h
    simpa using this
  have hl : lastPlace q = Int.log 2 |q| - 52 := by
    unfold lastPlace
    exact max_eq_left (by omega)
  have h1 : (2 : ℚ) ^ Int.log 2 |q| ≤ |q| := by
    have := Int.zpow_log_le_self (b := 2) (by norm_num) (show (0 : ℚ) < |q| by linarith)
    exact_mod_cast this
  have h2 : (2 : ℚ) ^ lastPlace q ≤ 2 ^ (Int.log 2 |q| - 1) := zpow_le_zpow_right₀ (by norm_num) (by omega)
  have h3 : (2 : ℚ) ^ (Int.log 2 |q| - 1) = 2 ^ Int.log 2 |q| / 2 := by
    rw [zpow_sub₀ (by norm_num), zpow_one]
  have := nearest_error q
  linarith

/-- **C129.** Numbers of 2^64 and more, and of -2^64 and less, are reported as having no meaning. -/
theorem C129_large (over : ℤ) (r : ℚ) (h : 2 ^ 64 ≤ |r|) : ratToInt64 over r = (0, true) ∧ ratToInt64Floor over r = (0, true) := by
  have hn := nearest_half r (le_trans (by norm_num) h)
  have key : nearest r > 2 ^ 63 ∨ nearest r < -2 ^ 63 := by
    have hb := abs_le.1 hn
    rcases le_or_gt 0 r with h0 | h0
    · rw [abs_of_nonneg h0] at h hb
      left
      have : (2 : ℚ) ^ 64 = 2 * 2 ^ 63 := by norm_num
      linarith [hb.1, show (0 : ℚ) < 2 ^ 63 by positivity]
    · rw [abs_of_neg h0] at h hb
      right
      have : (2 : ℚ) ^ 64 = 2 * 2 ^ 63 := by norm_num
      linarith [hb.2, show (0 : ℚ) < 2 ^ 63 by positivity]
  unfold ratToInt64 ratToInt64Floor float64
  split_ifs
  · simp only [if_pos key]
    exact ⟨trivial, trivial⟩
  · exact ⟨rfl, rfl⟩

/-- Minus a third of 2^70. -/
example (over : ℤ) : ratToInt64 over (-2 ^ 70 / 3) = (0, true) := (C129_large over _ (by norm_num [abs_div])).1

end Verif.Rat64

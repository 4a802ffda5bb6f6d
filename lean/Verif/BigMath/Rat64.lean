import Mathlib.Data.Rat.Floor
import Mathlib.Data.Int.Log
import Mathlib.Tactic.Linarith
import Mathlib.Tactic.NormNum
import Verif.Base

/-!
# Rounding of rational numbers to 64 bits (/repo/math/big.go:348-355, 406-427, 442-453)

`RatToInt64` and `RatToInt64Floor` go through a `float64`.  The model has the rounding of `big.Rat.Float64` (to the nearest number with
a mantissa of 53 bits and an exponent of at least -1074, ties to the even mantissa, infinite from `2^1024` on), which is also that of
the conversion `float64(x)`.  The conversion of `2^63` to `int64` is left open by the language: the result is a parameter `over`.
The nil pointer is not modelled (`Float64` panics).
-/

namespace Verif.Rat64

/-- Rounding to the nearest integer, ties to the even one. -/
def roundEven (x : ℚ) : ℤ :=
  if x - ⌊x⌋ < 1 / 2 then ⌊x⌋
  else if 1 / 2 < x - ⌊x⌋ then ⌊x⌋ + 1
  else if ⌊x⌋ % 2 = 0 then ⌊x⌋ else ⌊x⌋ + 1

/-- The exponent of the last place of the mantissa. -/
def lastPlace (q : ℚ) : ℤ := max (Int.log 2 |q| - 52) (-1074)

/-- The nearest number with 53 bits. -/
def nearest (q : ℚ) : ℚ := roundEven (q / 2 ^ lastPlace q) * 2 ^ lastPlace q

/-- `big.Rat.Float64`; `none` is an infinity. -/
def float64 (q : ℚ) : Option ℚ := if |nearest q| < 2 ^ (1024 : ℤ) then some (nearest q) else none

/-- `int64(f)` for `-2^63 ≤ f ≤ 2^63`. -/
def toInt64 (over : ℤ) (f : ℚ) : ℤ := if f = 2 ^ 63 then over else if 0 ≤ f then ⌊f⌋ else ⌈f⌉

/-- The sum of two `int64`. -/
def wrap (x : ℤ) : ℤ := if x = 2 ^ 63 then -2 ^ 63 else x

/-- /repo/math/big.go:408-418 `RatToInt64`. -/
def ratToInt64 (over : ℤ) (r : ℚ) : ℤ × Bool :=
  match float64 r with
  | none => (0, true)
  | some f =>
    if f > 2 ^ 63 ∨ f < -2 ^ 63 then (0, true)
    else if nearest (toInt64 over f) < f then (wrap (toInt64 over f + 1), false)
    else (toInt64 over f, false)

/-- /repo/math/big.go:421-427 `RatToInt64Floor`. -/
def ratToInt64Floor (over : ℤ) (r : ℚ) : ℤ × Bool :=
  match float64 r with
  | none => (0, true)
  | some f => if f > 2 ^ 63 ∨ f < -2 ^ 63 then (0, true) else (toInt64 over f, false)

/-- /repo/math/big.go:350-354 `Int64MulRat`. -/
def int64MulRat (over : ℤ) (i : ℤ) (r : ℚ) : ℤ := (ratToInt64 over (r * i)).1

/-- /repo/math/big.go:442-453 `CompareBigRat`; `none` is the nil pointer. -/
def compareBigRat : Option ℚ → Option ℚ → ℤ
  | none, none => 0
  | none, some _ => -1
  | some _, none => 1
  | some a, some b => if a < b then -1 else if a = b then 0 else 1

/-! ## Rounding -/

theorem roundEven_le (x : ℚ) (m : ℤ) (h : x ≤ m) : roundEven x ≤ m := by
  have h1 := Int.floor_le x
  have h2 := Int.lt_floor_add_one x
  have h3 : ⌊x⌋ ≤ m := by have : (⌊x⌋ : ℚ) ≤ m := le_trans h1 h; exact_mod_cast this
  unfold roundEven
  rcases lt_or_eq_of_le h3 with h4 | h4
  · split_ifs <;> omega
  · have : x - ⌊x⌋ ≤ 0 := by rw [h4]; linarith
    rw [if_pos (by linarith)]
    exact h3

theorem le_roundEven (x : ℚ) (m : ℤ) (h : (m : ℚ) ≤ x) : m ≤ roundEven x := by
  have h3 : m ≤ ⌊x⌋ := Int.le_floor.2 h
  unfold roundEven
  split_ifs <;> omega

theorem roundEven_error (x : ℚ) : |(roundEven x : ℚ) - x| ≤ 1 / 2 := by
  have h1 := Int.floor_le x
  have h2 := Int.lt_floor_add_one x
  unfold roundEven
  rw [abs_le]
  split_ifs with a b c
  · constructor <;> linarith
  · push_cast; constructor <;> linarith
  · constructor <;> linarith
  · push_cast; constructor <;> linarith

theorem place_pos (q : ℚ) : (0 : ℚ) < 2 ^ lastPlace q := zpow_pos (by norm_num) _

theorem nearest_zero : nearest 0 = 0 := by
  have : roundEven 0 = 0 := by decide +kernel
  simp [nearest, this]

theorem nearest_le (q : ℚ) (m : ℤ) (h : q ≤ m * 2 ^ lastPlace q) : nearest q ≤ m * 2 ^ lastPlace q := by
  have hp := place_pos q
  refine mul_le_mul_of_nonneg_right ?_ hp.le
  exact_mod_cast roundEven_le _ m ((div_le_iff₀ hp).2 h)

theorem le_nearest (q : ℚ) (m : ℤ) (h : m * 2 ^ lastPlace q ≤ q) : m * 2 ^ lastPlace q ≤ nearest q := by
  have hp := place_pos q
  refine mul_le_mul_of_nonneg_right ?_ hp.le
  exact_mod_cast le_roundEven _ m ((le_div_iff₀ hp).2 h)

theorem nearest_error (q : ℚ) : |nearest q - q| ≤ 2 ^ lastPlace q / 2 := by
  have hp := place_pos q
  have h := roundEven_error (q / 2 ^ lastPlace q)
  have e : nearest q - q = (roundEven (q / 2 ^ lastPlace q) - q / 2 ^ lastPlace q) * 2 ^ lastPlace q := by
    unfold nearest
    field_simp
  rw [e, abs_mul, abs_of_pos hp]
  nlinarith

/-- A power of two is a multiple of the last place if it is not smaller. -/
theorem multiple (q : ℚ) (k : ℕ) (n : ℤ) (h : lastPlace q ≤ k) : ∃ m : ℤ, (n : ℚ) * 2 ^ k = m * 2 ^ lastPlace q := by
  obtain ⟨j, hj⟩ := Int.le.dest h
  refine ⟨n * 2 ^ j, ?_⟩
  push_cast
  rw [mul_assoc, ← zpow_natCast (2 : ℚ) j, ← zpow_add₀ (by norm_num), ← zpow_natCast (2 : ℚ) k]
  congr 2
  omega

theorem lastPlace_le (q : ℚ) (k : ℕ) (h : |q| < 2 ^ (k + 53)) : lastPlace q ≤ k := by
  unfold lastPlace
  refine max_le ?_ (by omega)
  by_cases h0 : q = 0
  · subst h0; simp
  have := (Int.lt_zpow_iff_log_lt (b := 2) (by norm_num) (abs_pos.2 h0) (x := ((k + 53 : ℕ) : ℤ))).1 (by rw [zpow_natCast]; exact_mod_cast h)
  push_cast at this
  omega

/-- Integers of at most 53 bits are not rounded past. -/
theorem nearest_between (q : ℚ) (n : ℤ) (hq : |q| < 2 ^ 53) : (q ≤ n → nearest q ≤ n) ∧ ((n : ℚ) ≤ q → (n : ℚ) ≤ nearest q) := by
  obtain ⟨m, hm⟩ := multiple q 0 n (lastPlace_le q 0 (by simpa using hq))
  rw [pow_zero, mul_one] at hm
  constructor
  · intro h; rw [hm] at h ⊢; exact nearest_le q m h
  · intro h; rw [hm] at h ⊢; exact le_nearest q m h

/-- A number that is a multiple of its last place is not rounded. -/
theorem nearest_exact (q : ℚ) (k : ℕ) (n : ℤ) (he : q = n * 2 ^ k) (h : lastPlace q ≤ k) : nearest q = q := by
  obtain ⟨m, hm⟩ := multiple q k n h
  rw [← he] at hm
  exact le_antisymm (by have := nearest_le q m (le_of_eq hm); rw [← hm] at this; exact this) (by have := le_nearest q m (ge_of_eq hm); rw [← hm] at this; exact this)

theorem nearest_int (n : ℤ) (h : |n| ≤ 2 ^ 53) : nearest n = n := by
  rcases lt_or_eq_of_le h with h | h
  · have h' : |(n : ℚ)| < 2 ^ 53 := by exact_mod_cast h
    have := nearest_between n n h'
    exact le_antisymm (this.1 le_rfl) (this.2 le_rfl)
  · rcases abs_eq (by norm_num : (0 : ℤ) ≤ 2 ^ 53) |>.1 h with h | h <;> subst h
    · refine nearest_exact _ 52 2 (by norm_num) (lastPlace_le _ 52 ?_); norm_num
    · refine nearest_exact _ 52 (-2) (by norm_num) (lastPlace_le _ 52 ?_); norm_num

/-- The relative error of the rounding, for numbers that are not tiny. -/
theorem nearest_relative (q : ℚ) (h : 2 ^ (-1022 : ℤ) ≤ |q|) : |nearest q - q| ≤ |q| / 2 ^ 53 := by
  have h0 : 0 < |q| := lt_of_lt_of_le (zpow_pos (by norm_num) _) h
  have hl : -1022 ≤ Int.log 2 |q| := (Int.zpow_le_iff_le_log (b := 2) (by norm_num) h0).1 (by exact_mod_cast h)
  have hp : lastPlace q = Int.log 2 |q| - 52 := by unfold lastPlace; omega
  have h1 := Int.zpow_log_le_self (b := 2) (by norm_num) h0
  have h2 := nearest_error q
  have h3 : (2 : ℚ) ^ lastPlace q = 2 ^ Int.log 2 |q| / 2 ^ 52 := by
    rw [hp, zpow_sub₀ (by norm_num)]
    norm_cast
  rw [h3] at h2
  have h1' : (2 : ℚ) ^ Int.log 2 |q| ≤ |q| := by exact_mod_cast h1
  calc |nearest q - q| ≤ 2 ^ Int.log 2 |q| / 2 ^ 52 / 2 := h2
    _ ≤ |q| / 2 ^ 52 / 2 := by gcongr
    _ = |q| / 2 ^ 53 := by rw [div_div]; norm_num

/-- A fraction with a numerator of at most 53 bits is not rounded to an integer it is not. -/
theorem nearest_strict (r : ℚ) (hn : |r.num| < 2 ^ 53) (hd : r.den ≤ 2 ^ 1000) (hi : (⌊r⌋ : ℚ) ≠ r) :
    (⌊r⌋ : ℚ) < nearest r ∧ nearest r < ⌊r⌋ + 1 := by
  have hdp : (0 : ℚ) < r.den := by exact_mod_cast r.den_pos
  have hr : r = r.num / r.den := (Rat.num_div_den r).symm
  have hmul : r * r.den = r.num := Rat.mul_den_eq_num r
  have hnum0 : r.num ≠ 0 := by
    intro e
    have : r = 0 := Rat.num_eq_zero.1 e
    subst this
    exact hi (by simp)
  have habs : |r| = |r.num| / r.den := by
    conv_lhs => rw [hr]
    rw [abs_div, abs_of_pos hdp]
    push_cast
    rfl
  have hge : (2 : ℚ) ^ (-1022 : ℤ) ≤ |r| := by
    have h1 : (1 : ℚ) ≤ |(r.num : ℚ)| := by
      have := Int.one_le_abs hnum0
      exact_mod_cast this
    have h2 : (r.den : ℚ) ≤ 2 ^ 1000 := by exact_mod_cast hd
    rw [habs]
    push_cast
    calc (2 : ℚ) ^ (-1022 : ℤ) ≤ 1 / 2 ^ 1000 := by
          rw [one_div, ← zpow_natCast, ← zpow_neg]
          exact zpow_le_zpow_right₀ (by norm_num) (by norm_num)
      _ ≤ 1 / r.den := by gcongr
      _ ≤ |(r.num : ℚ)| / r.den := by gcongr
  have herr := nearest_relative r hge
  clear hge hd
  have hlt : |r| / 2 ^ 53 < 1 / r.den := by
    rw [habs, div_div, div_lt_div_iff₀ (by positivity) hdp, one_mul, mul_comm]
    have : (|r.num| : ℚ) < 2 ^ 53 := by exact_mod_cast hn
    push_cast
    nlinarith
  have hlow : 1 / (r.den : ℚ) ≤ r - ⌊r⌋ := by
    rw [div_le_iff₀ hdp, sub_mul, hmul]
    have h1 : (⌊r⌋ * r.den : ℤ) < r.num := by
      have h2 := Int.floor_le r
      have h3 : (⌊r⌋ : ℚ) < r := lt_of_le_of_ne h2 hi
      have : (⌊r⌋ : ℚ) * r.den < r.num := by rw [← hmul]; exact mul_lt_mul_of_pos_right h3 hdp
      exact_mod_cast this
    have h4 : (⌊r⌋ * r.den : ℤ) + 1 ≤ r.num := h1
    have h5 : (⌊r⌋ : ℚ) * r.den + 1 ≤ r.num := by exact_mod_cast h4
    linarith
  have hup : 1 / (r.den : ℚ) ≤ ⌊r⌋ + 1 - r := by
    rw [div_le_iff₀ hdp, sub_mul, hmul]
    have h1 : r.num < ((⌊r⌋ + 1) * r.den : ℤ) := by
      have h3 := Int.lt_floor_add_one r
      have : (r.num : ℚ) < (⌊r⌋ + 1) * r.den := by rw [← hmul]; exact mul_lt_mul_of_pos_right h3 hdp
      exact_mod_cast this
    have h4 : r.num + 1 ≤ ((⌊r⌋ + 1) * r.den : ℤ) := h1
    have h5 : (r.num : ℚ) + 1 ≤ (⌊r⌋ + 1) * r.den := by exact_mod_cast h4
    linarith
  have := abs_le.1 herr
  constructor <;> linarith

theorem small (r : ℚ) (hn : |r.num| < 2 ^ 53) : |r| < 2 ^ 53 := by
  have hdp : (1 : ℚ) ≤ r.den := by exact_mod_cast r.den_pos
  have hr : r = r.num / r.den := (Rat.num_div_den r).symm
  have h1 : |(r.num : ℚ)| < 2 ^ 53 := by exact_mod_cast hn
  rw [hr, abs_div, abs_of_pos (by linarith : (0 : ℚ) < r.den), div_lt_iff₀ (by linarith)]
  nlinarith [abs_nonneg (r.num : ℚ)]

theorem nearest_small (r : ℚ) (h : |r| < 2 ^ 53) : |nearest r| ≤ 2 ^ 53 := by
  have h1 := nearest_between r (2 ^ 53) h
  have h2 := nearest_between r (-2 ^ 53) h
  rw [abs_lt] at h
  rw [abs_le]
  push_cast at h1 h2
  exact ⟨h2.2 h.1.le, h1.1 h.2.le⟩

/-- What the two functions see of such a fraction. -/
theorem seen (r : ℚ) (hn : |r.num| < 2 ^ 53) (hd : r.den ≤ 2 ^ 1000) :
    float64 r = some (nearest r) ∧ ¬ (nearest r > 2 ^ 63 ∨ nearest r < -2 ^ 63) ∧ nearest r ≠ 2 ^ 63 ∧
      ((nearest r = ⌊r⌋ ∧ (⌊r⌋ : ℚ) = r) ∨ ((⌊r⌋ : ℚ) ≠ r ∧ (⌊r⌋ : ℚ) < nearest r ∧ nearest r < ⌊r⌋ + 1)) := by
  have h := nearest_small r (small r hn)
  have h' := abs_le.1 h
  refine ⟨?_, ?_, ?_, ?_⟩
  · unfold float64
    rw [if_pos]
    refine lt_of_le_of_lt h ?_
    have : (2 : ℚ) ^ (53 : ℤ) < 2 ^ (1024 : ℤ) := zpow_lt_zpow_right₀ (by norm_num) (by norm_num)
    exact_mod_cast this
  · norm_num at h' ⊢
    constructor <;> linarith
  · norm_num at h' ⊢
    intro e
    linarith
  · by_cases hi : (⌊r⌋ : ℚ) = r
    · left
      have h1 := small r hn
      rw [← hi] at h1
      have h2 : |⌊r⌋| ≤ 2 ^ 53 := by
        have : |(⌊r⌋ : ℚ)| ≤ 2 ^ 53 := h1.le
        exact_mod_cast this
      refine ⟨?_, hi⟩
      conv_lhs => rw [← hi]
      exact nearest_int _ h2
    · exact .inr ⟨hi, nearest_strict r hn hd hi⟩

theorem toInt64_between (over : ℤ) (f : ℚ) (n : ℤ) (h1 : (n : ℚ) < f) (h2 : f < n + 1) (h3 : f ≠ 2 ^ 63) :
    toInt64 over f = if 0 ≤ f then n else n + 1 := by
  unfold toInt64
  rw [if_neg h3]
  split_ifs with h0
  · exact Int.floor_eq_iff.2 ⟨h1.le, h2⟩
  · exact Int.ceil_eq_iff.2 ⟨by push_cast; linarith, by push_cast; exact h2.le⟩

theorem toInt64_int (over : ℤ) (n : ℤ) (h3 : (n : ℚ) ≠ 2 ^ 63) : toInt64 over n = n := by
  unfold toInt64
  rw [if_neg h3]
  split_ifs <;> simp

/-- C129, rounding up: a fraction whose numerator (in lowest terms) has at most 53 bits is rounded to the smallest integer that is not
less.  Missing: longer numerators, see `C129_up_refuted`. -/
theorem C129_up_partial (over : ℤ) (r : ℚ) (hn : |r.num| < 2 ^ 53) (hd : r.den ≤ 2 ^ 1000) : ratToInt64 over r = (⌈r⌉, false) := by
  obtain ⟨h1, h2, h3, h4⟩ := seen r hn hd
  have hb := abs_le.1 (nearest_small r (small r hn))
  unfold ratToInt64
  rw [h1]
  simp only [if_neg h2]
  rcases h4 with ⟨h4, h5⟩ | ⟨h4, h5, h6⟩
  · rw [h4] at h3 hb ⊢
    rw [toInt64_int over _ h3, nearest_int _ (by rw [abs_le]; exact_mod_cast hb), if_neg (lt_irrefl _)]
    congr 1
    conv_rhs => rw [← h5]
    simp
  · have hc : ⌈r⌉ = ⌊r⌋ + 1 := by
      refine Int.ceil_eq_iff.2 ⟨?_, ?_⟩
      · push_cast; have := lt_of_le_of_ne (Int.floor_le r) h4; linarith
      · push_cast; exact (Int.lt_floor_add_one r).le
    rw [toInt64_between over _ _ h5 h6 h3]
    have hf1 : ⌊r⌋ < 2 ^ 53 := by have : (⌊r⌋ : ℚ) < 2 ^ 53 := by linarith
                                  exact_mod_cast this
    have hf2 : -2 ^ 53 - 1 < ⌊r⌋ := by
      have : (-2 ^ 53 - 1 : ℚ) < ⌊r⌋ := by linarith
      exact_mod_cast this
    by_cases h0 : 0 ≤ nearest r
    · have hfl : -1 < ⌊r⌋ := by
        have : (-1 : ℚ) < ⌊r⌋ := by linarith
        exact_mod_cast this
      simp only [if_pos h0]
      rw [nearest_int _ (by rw [abs_le]; omega), if_pos h5, hc, wrap, if_neg (by omega)]
    · simp only [if_neg h0]
      rw [nearest_int _ (by rw [abs_le]; omega), if_neg (by push_cast; linarith), hc]

/-- C129, rounding down: the same for fractions that are not negative.  Missing: the others, see `C129_down_refuted`. -/
theorem C129_down_partial (over : ℤ) (r : ℚ) (h0 : 0 ≤ r) (hn : |r.num| < 2 ^ 53) (hd : r.den ≤ 2 ^ 1000) :
    ratToInt64Floor over r = (⌊r⌋, false) := by
  obtain ⟨h1, h2, h3, h4⟩ := seen r hn hd
  unfold ratToInt64Floor
  rw [h1]
  simp only [if_neg h2]
  rcases h4 with ⟨h4, h5⟩ | ⟨h4, h5, h6⟩
  · rw [h4] at h3 ⊢
    rw [toInt64_int over _ h3]
  · have : (0 : ℚ) ≤ ⌊r⌋ := by exact_mod_cast Int.floor_nonneg.2 h0
    rw [toInt64_between over _ _ h5 h6 h3, if_pos (by linarith)]

/-- C129, the product of an integer and a fraction is rounded up, if the numerator of the product has at most 53 bits.  Missing: longer
numerators, see `C129_product_refuted`. -/
theorem C129_product_partial (over i : ℤ) (r : ℚ) (hn : |(r * i).num| < 2 ^ 53) (hd : r.den ≤ 2 ^ 1000) : int64MulRat over i r = ⌈r * i⌉ := by
  have : (r * i).den ≤ r.den := by
    have := Rat.mul_den_dvd r i
    rw [Rat.den_intCast, mul_one] at this
    exact Nat.le_of_dvd r.den_pos this
  unfold int64MulRat
  rw [C129_up_partial over _ hn (le_trans this hd)]

/-! ## What is wrong -/

theorem place_of (q : ℚ) (e : ℤ) (h1 : (2 : ℚ) ^ e ≤ |q|) (h2 : |q| < 2 ^ (e + 1)) (he : -1022 ≤ e) : lastPlace q = e - 52 := by
  have h0 : 0 < |q| := lt_of_lt_of_le (zpow_pos (by norm_num) _) h1
  have a := (Int.zpow_le_iff_le_log (b := 2) (by norm_num) h0).1 (by exact_mod_cast h1)
  have b := (Int.lt_zpow_iff_log_lt (b := 2) (by norm_num) h0).1 (by exact_mod_cast h2)
  unfold lastPlace
  omega

theorem ratToInt64_of {over : ℤ} {r f : ℚ} (h : nearest r = f) (hf : |f| ≤ 2 ^ 63) : ratToInt64 over r =
    if nearest (toInt64 over f) < f then (wrap (toInt64 over f + 1), false) else (toInt64 over f, false) := by
  have h' := abs_le.1 hf
  unfold ratToInt64 float64
  rw [h, if_pos]
  · simp only [if_neg (not_or.2 ⟨not_lt.2 h'.2, not_lt.2 h'.1⟩)]
  · refine lt_of_le_of_lt hf ?_
    have : (2 : ℚ) ^ (63 : ℤ) < 2 ^ (1024 : ℤ) := zpow_lt_zpow_right₀ (by norm_num) (by norm_num)
    exact_mod_cast this

theorem nearest_of (q : ℚ) (e : ℤ) (m : ℤ) (h1 : (2 : ℚ) ^ e ≤ |q|) (h2 : |q| < 2 ^ (e + 1)) (he : -1022 ≤ e)
    (hm : roundEven (q / 2 ^ (e - 52)) = m) : nearest q = m * 2 ^ (e - 52) := by
  unfold nearest
  rw [place_of q e h1 h2 he, hm]

/-- C129 fails: what is slightly more than an integer is rounded down to it, and integers of more than 53 bits are changed. -/
theorem C129_up_refuted (over : ℤ) : ratToInt64 over (1 + 1 / 2 ^ 60) = (1, false) ∧ ⌈(1 + 1 / 2 ^ 60 : ℚ)⌉ = 2 ∧
    ratToInt64 over (2 ^ 53 + 1) = (2 ^ 53, false) := by
  refine ⟨?_, ?_, ?_⟩
  · have h : nearest (1 + 1 / 2 ^ 60) = 1 := by
      rw [nearest_of _ 0 (2 ^ 52) (by norm_num) (by norm_num) (by norm_num) (by decide +kernel)]
      norm_num
    have h1 : toInt64 over 1 = 1 := by have := toInt64_int over 1 (by norm_num); simpa using this
    have h2 : nearest 1 = 1 := by have := nearest_int 1 (by norm_num); simpa using this
    rw [ratToInt64_of h (by norm_num), h1]
    simp [h2]
  · decide +kernel
  · have h : nearest (2 ^ 53 + 1) = 2 ^ 53 := by
      rw [nearest_of _ 53 (2 ^ 52) (by norm_num) (by norm_num) (by norm_num) (by decide +kernel)]
      norm_num
    have e : ((2 ^ 53 : ℤ) : ℚ) = 2 ^ 53 := by norm_num
    have h1 := toInt64_int over (2 ^ 53) (by norm_num)
    have h2 := nearest_int (2 ^ 53) (by norm_num)
    rw [e] at h1
    rw [ratToInt64_of h (by norm_num), h1, h2, e, if_neg (lt_irrefl _)]

/-- C129 fails for products: even with the factor 1. -/
theorem C129_product_refuted (over : ℤ) : int64MulRat over (2 ^ 53 + 1) 1 = 2 ^ 53 := by
  unfold int64MulRat
  have := (C129_up_refuted over).2.2
  have e : ((2 ^ 53 + 1 : ℤ) : ℚ) = 2 ^ 53 + 1 := by norm_num
  rw [one_mul, e, this]

/-- C129 fails: negative fractions are rounded up by `RatToInt64Floor`. -/
theorem C129_down_refuted (over : ℤ) : ratToInt64Floor over (-1 / 2) = (0, false) ∧ ⌊(-1 / 2 : ℚ)⌋ = -1 := by
  constructor
  · have h : nearest (-1 / 2) = -1 / 2 := by
      rw [nearest_of _ (-1) (-2 ^ 52) (by norm_num [abs_of_neg, abs_div]) (by norm_num [abs_div]) (by norm_num) (by decide +kernel)]
      norm_num
    unfold ratToInt64Floor float64
    rw [h, if_pos]
    · simp only
      rw [if_neg (by norm_num)]
      congr 1
      unfold toInt64
      rw [if_neg (by norm_num), if_neg (by norm_num)]
      decide +kernel
    · refine lt_of_lt_of_le (b := 2 ^ (0 : ℤ)) (by norm_num [abs_div]) ?_
      exact zpow_le_zpow_right₀ (by norm_num) (by norm_num)
  · decide +kernel

/-- C129 fails at the upper end: `2^63` is not reported as too large, whatever the conversion gives. -/
theorem C129_limit_refuted (over : ℤ) (ho : -2 ^ 63 ≤ over ∧ over < 2 ^ 63) : (ratToInt64 over (2 ^ 63)).2 = false ∧
    (ratToInt64 over (2 ^ 63)).1 < 2 ^ 63 := by
  have h : nearest (2 ^ 63) = 2 ^ 63 := by
    rw [nearest_of _ 63 (2 ^ 52) (by norm_num) (by norm_num) (by norm_num) (by decide +kernel)]
    norm_num
  rw [ratToInt64_of h (by norm_num)]
  have : toInt64 over (2 ^ 63) = over := if_pos rfl
  rw [this]
  split
  · refine ⟨rfl, ?_⟩
    show wrap (over + 1) < 2 ^ 63
    unfold wrap
    split <;> omega
  · exact ⟨rfl, ho.2⟩

/-- **C129, too large.**  Whatever is reported as too large is outside the range of `int64`. -/
theorem C129_meaningless (over : ℤ) (r : ℚ) (h : (ratToInt64 over r).2 = true) : r < -2 ^ 63 ∨ 2 ^ 63 < r := by
  by_contra hc
  rw [not_or, not_lt, not_lt] at hc
  have hp : lastPlace r ≤ (11 : ℕ) := lastPlace_le r 11 (lt_of_le_of_lt (abs_le.2 hc) (by norm_num))
  obtain ⟨m, hm⟩ := multiple r 11 (2 ^ 52) hp
  obtain ⟨k, hk⟩ := multiple r 11 (-2 ^ 52) hp
  have e1 : ((2 ^ 52 : ℤ) : ℚ) * 2 ^ 11 = 2 ^ 63 := by norm_num
  have e2 : ((-2 ^ 52 : ℤ) : ℚ) * 2 ^ 11 = -2 ^ 63 := by norm_num
  rw [e1] at hm
  rw [e2] at hk
  have a := nearest_le r m (hm ▸ hc.2)
  have b := le_nearest r k (hk ▸ hc.1)
  rw [← hm] at a
  rw [← hk] at b
  rw [ratToInt64_of rfl (abs_le.2 ⟨b, a⟩)] at h
  split at h <;> cases h

/-- The order of optional fractions: nil is the least. -/
def LeOpt : Option ℚ → Option ℚ → Prop
  | none, _ => True
  | some _, none => False
  | some a, some b => a ≤ b

/-- **C129, comparing.**  `CompareBigRat` is the comparison of a total order in which nil is the least. -/
theorem C129_compare (a b : Option ℚ) : (compareBigRat a b = 0 ↔ a = b) ∧ (compareBigRat a b ≤ 0 ↔ LeOpt a b) ∧
    compareBigRat b a = -compareBigRat a b := by
  cases a <;> cases b <;> simp only [compareBigRat, LeOpt] <;> try simp
  rename_i x y
  rcases lt_trichotomy x y with h | h | h
  · simp [h, h.ne, h.le, not_lt.2 h.le, h.ne']
  · subst h; simp
  · simp [h, not_le.2 h, not_lt.2 h.le, h.ne']

/-! A concrete case within the limits: `-7/3` is rounded up to `-2`. -/
example (over : ℤ) : ratToInt64 over (-7 / 3) = (-2, false) := by
  rw [C129_up_partial over (-7 / 3) (by decide +kernel) (by rw [show (-7 / 3 : ℚ).den = 3 by decide +kernel]; exact le_trans (by norm_num) (Nat.pow_le_pow_right (by norm_num : 2 > 0) (by norm_num : 2 ≤ 1000)))]
  congr 1
  decide +kernel

end Verif.Rat64

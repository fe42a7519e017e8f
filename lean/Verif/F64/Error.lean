import Verif.F64.Lemmas
import Mathlib.Tactic.Linarith
import Mathlib.Tactic.NormNum
import Mathlib.Tactic.Positivity

/-!
# Rounding errors

A sum or difference below 64 is off by at most `2 ^ -48`.
-/

namespace Carmen.F64

theorem roundHalfEven_err (q : ℚ) : |(roundHalfEven q : ℚ) - q| ≤ 1 / 2 := by
  have h1 := Int.floor_le q
  have h2 := Int.lt_floor_add_one q
  unfold roundHalfEven
  split_ifs with a b c
  · rw [abs_le]; constructor <;> linarith
  · push_cast
    rw [abs_le]; constructor <;> linarith
  · rw [abs_le]; constructor <;> linarith
  · push_cast
    rw [abs_le]; constructor <;> linarith

/-- Rounding a number below 64 is off by at most `2 ^ -48`. -/
theorem roundQ_err {q : ℚ} (h : |q| < 64) : |roundQ q - q| ≤ 1 / 2 ^ 48 := by
  have hu : ulpExp |q| ≤ -47 := by
    unfold ulpExp
    rcases eq_or_lt_of_le (abs_nonneg q) with h0 | h0
    · rw [← h0]; simp
    · have : Int.log 2 |q| < 6 := by
        by_contra hn
        have h1 := log_le h0
        have h2 : (2:ℚ) ^ (6:ℤ) ≤ 2 ^ Int.log 2 |q| :=
          zpow_le_zpow_right₀ (by norm_num) (not_lt.1 hn)
        have h3 : (2:ℚ) ^ (6:ℤ) = 64 := by norm_num
        rw [h3] at h2
        linarith
      omega
  have hp : (0:ℚ) < 2 ^ ulpExp |q| := two_zpow_pos _
  have hle : (2:ℚ) ^ ulpExp |q| ≤ 2 ^ (-47 : ℤ) := zpow_le_zpow_right₀ (by norm_num) hu
  have he := roundHalfEven_err (q / 2 ^ ulpExp |q|)
  have hd : q = q / 2 ^ ulpExp |q| * 2 ^ ulpExp |q| := by field_simp
  have key : roundQ q - q =
      ((roundHalfEven (q / 2 ^ ulpExp |q|) : ℚ) - q / 2 ^ ulpExp |q|) * 2 ^ ulpExp |q| := by
    unfold roundQ
    rw [sub_mul, ← hd]
  rw [key, abs_mul, abs_of_pos hp]
  have h47 : (2:ℚ) ^ (-47 : ℤ) = 1 / 2 ^ 47 := by norm_num
  rw [h47] at hle
  calc _ ≤ 1 / 2 * (1 / 2 ^ 47 : ℚ) := by
        apply mul_le_mul he hle hp.le (by norm_num)
    _ = _ := by norm_num

theorem ofRat_err {q : ℚ} (h : |q| < 64) :
    ∃ r, ofRat q = fin r ∧ |r - q| ≤ 1 / 2 ^ 48 := by
  have he := roundQ_err h
  have hb := overflowBound_gt
  rw [abs_lt] at h
  have he' := abs_le.1 he
  refine ⟨roundQ q, ?_, he⟩
  have h48 : (1:ℚ) / 2 ^ 48 ≤ 1 := by norm_num
  have h53 : (2:ℚ) ^ 53 ≥ 100 := by norm_num
  unfold ofRat ofRounded
  rw [if_neg (by linarith), if_neg (by linarith)]

theorem add_err {a b : ℚ} (h : |a + b| < 64) :
    ∃ r, fin a + fin b = fin r ∧ |r - (a + b)| ≤ 1 / 2 ^ 48 := ofRat_err h

theorem sub_err {a b : ℚ} (h : |a - b| < 64) :
    ∃ r, fin a - fin b = fin r ∧ |r - (a - b)| ≤ 1 / 2 ^ 48 := by
  rw [sub_eq_add_neg] at h ⊢
  exact add_err h

end Carmen.F64

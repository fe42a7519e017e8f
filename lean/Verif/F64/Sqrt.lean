import Mathlib.Tactic.Positivity
import Mathlib.Tactic.Linarith
import Mathlib.Tactic.Ring
import Mathlib.Tactic.FieldSimp
import Verif.F64.Lemmas

/-!
# Monotonicity of division and square root
-/

namespace Carmen.F64

/-! ## Division -/

theorem div_fin {a b : ℚ} (hb : b ≠ 0) : fin a / fin b = ofRat (a / b) := by
  show (if b = 0 then _ else ofRat (a / b)) = _
  rw [if_neg hb]

theorem div_mono {a b c d : ℚ} (ha : 0 ≤ a) (hac : a ≤ c) (hd : 0 < d) (hdb : d ≤ b) :
    fin a / fin b ≤ fin c / fin d := by
  have hb : 0 < b := lt_of_lt_of_le hd hdb
  rw [div_fin hb.ne', div_fin hd.ne']
  exact ofRat_mono (div_le_div₀ (ha.trans hac) hac hd hdb)

/-! ## Square root -/

/-- The integer nearest to `√t`, ties to even, from the integer part of the root. -/
def rootNear (t : ℚ) : ℕ :=
  let n : ℕ := Nat.sqrt ⌊t⌋₊
  let h : ℚ := (n + 1 / 2) * (n + 1 / 2)
  if t < h then n else if h < t then n + 1 else if n % 2 = 0 then n else n + 1

theorem sqrtQ_eq (q : ℚ) : sqrtQ q =
    rootNear (q / 4 ^ (Int.log 2 q / 2 - 52)) * 2 ^ (Int.log 2 q / 2 - 52) := rfl

theorem le_rootNear (t : ℚ) : Nat.sqrt ⌊t⌋₊ ≤ rootNear t := by
  unfold rootNear
  simp only
  split
  · exact le_rfl
  · split
    · omega
    · split <;> omega

theorem rootNear_le (t : ℚ) : rootNear t ≤ Nat.sqrt ⌊t⌋₊ + 1 := by
  unfold rootNear
  simp only
  split
  · omega
  · split
    · exact le_rfl
    · split <;> omega

theorem rootNear_mono {t t' : ℚ} (h : t ≤ t') : rootNear t ≤ rootNear t' := by
  have hn : Nat.sqrt ⌊t⌋₊ ≤ Nat.sqrt ⌊t'⌋₊ := Nat.sqrt_le_sqrt (Nat.floor_mono h)
  rcases Nat.eq_or_lt_of_le hn with he | hlt
  · unfold rootNear
    rw [← he]
    simp only
    generalize ((Nat.sqrt ⌊t⌋₊ : ℚ) + 1 / 2) * ((Nat.sqrt ⌊t⌋₊ : ℚ) + 1 / 2) = m
    by_cases h1 : t < m
    · rw [if_pos h1]
      split
      · exact le_rfl
      · split
        · omega
        · split <;> omega
    · rw [if_neg h1, if_neg (fun hc => h1 (lt_of_le_of_lt h hc))]
      by_cases h2 : m < t
      · rw [if_pos h2, if_pos (lt_of_lt_of_le h2 h)]
      · rw [if_neg h2]
        split
        · split
          · exact Nat.le_succ _
          · exact le_rfl
        · split <;> exact le_rfl
  · exact (rootNear_le t).trans ((Nat.succ_le_of_lt hlt).trans (le_rootNear t'))

theorem rootNear_natCast_sq (n : ℕ) : rootNear ((n : ℚ) * n) = n := by
  unfold rootNear
  have : ⌊(n : ℚ) * n⌋₊ = n * n := by
    rw [show (n : ℚ) * n = ((n * n : ℕ) : ℚ) by push_cast; ring]
    exact Nat.floor_natCast _
  rw [this, Nat.sqrt_eq]
  simp only
  rw [if_pos]
  have : (0 : ℚ) ≤ n := Nat.cast_nonneg n
  nlinarith

theorem four_zpow (e : ℤ) : (4 : ℚ) ^ e = 2 ^ e * 2 ^ e := by
  rw [← mul_zpow]; norm_num

theorem four_zpow_pos (e : ℤ) : (0 : ℚ) < 4 ^ e := by
  rw [four_zpow]; exact mul_pos (two_zpow_pos e) (two_zpow_pos e)

theorem sqrtQ_low {q : ℚ} (hq : 0 < q) : (2 : ℚ) ^ (Int.log 2 q / 2) ≤ sqrtQ q := by
  have h52 : (2 : ℚ) ^ (52 : ℕ) * 2 ^ (52 : ℕ) ≤ q / 4 ^ (Int.log 2 q / 2 - 52) := by
    rw [le_div_iff₀ (four_zpow_pos _), four_zpow]
    have h1 : (2 : ℚ) ^ (52 : ℕ) * 2 ^ (52 : ℕ) *
        (2 ^ (Int.log 2 q / 2 - 52) * 2 ^ (Int.log 2 q / 2 - 52)) =
        2 ^ (Int.log 2 q / 2 * 2) := by
      rw [← zpow_natCast, ← zpow_add₀ (by norm_num), ← zpow_add₀ (by norm_num),
        ← zpow_add₀ (by norm_num)]
      congr 1
      push_cast
      ring
    rw [h1]
    refine le_trans ?_ (log_le hq)
    exact zpow_le_zpow_right₀ (by norm_num) (by omega)
  have h2 := rootNear_mono h52
  have h3 : rootNear ((2 : ℚ) ^ (52 : ℕ) * 2 ^ (52 : ℕ)) = 2 ^ 52 := by
    have := rootNear_natCast_sq (2 ^ 52)
    push_cast at this
    exact this
  rw [h3] at h2
  rw [sqrtQ_eq]
  have h4 : (2 : ℚ) ^ (Int.log 2 q / 2) = ((2 ^ 52 : ℕ) : ℚ) * 2 ^ (Int.log 2 q / 2 - 52) := by
    rw [Nat.cast_pow, Nat.cast_ofNat, ← zpow_natCast, ← zpow_add₀ (by norm_num)]
    congr 1
    push_cast
    ring
  rw [h4]
  exact mul_le_mul_of_nonneg_right (by exact_mod_cast h2) (two_zpow_pos _).le

theorem sqrtQ_high {q : ℚ} : sqrtQ q ≤ (2 : ℚ) ^ (Int.log 2 q / 2 + 1) := by
  have h53 : q / 4 ^ (Int.log 2 q / 2 - 52) ≤ (2 : ℚ) ^ (53 : ℕ) * 2 ^ (53 : ℕ) := by
    rw [div_le_iff₀ (four_zpow_pos _), four_zpow]
    have h1 : (2 : ℚ) ^ (53 : ℕ) * 2 ^ (53 : ℕ) *
        (2 ^ (Int.log 2 q / 2 - 52) * 2 ^ (Int.log 2 q / 2 - 52)) =
        2 ^ (Int.log 2 q / 2 * 2 + 2) := by
      rw [← zpow_natCast, ← zpow_add₀ (by norm_num), ← zpow_add₀ (by norm_num),
        ← zpow_add₀ (by norm_num)]
      congr 1
      push_cast
      ring
    rw [h1]
    refine le_trans (log_lt (a := q)).le ?_
    exact zpow_le_zpow_right₀ (by norm_num) (by omega)
  have h2 := rootNear_mono h53
  have h3 : rootNear ((2 : ℚ) ^ (53 : ℕ) * 2 ^ (53 : ℕ)) = 2 ^ 53 := by
    have := rootNear_natCast_sq (2 ^ 53)
    push_cast at this
    exact this
  rw [h3] at h2
  rw [sqrtQ_eq]
  have h4 : (2 : ℚ) ^ (Int.log 2 q / 2 + 1) = ((2 ^ 53 : ℕ) : ℚ) * 2 ^ (Int.log 2 q / 2 - 52) := by
    rw [Nat.cast_pow, Nat.cast_ofNat, ← zpow_natCast, ← zpow_add₀ (by norm_num)]
    congr 1
    push_cast
    ring
  rw [h4]
  exact mul_le_mul_of_nonneg_right (by exact_mod_cast h2) (two_zpow_pos _).le

/-- The square root never falls when its argument grows. -/
theorem sqrtQ_mono {p q : ℚ} (hp : 0 < p) (hpq : p ≤ q) : sqrtQ p ≤ sqrtQ q := by
  have hlog : Int.log 2 p ≤ Int.log 2 q := Int.log_mono_right hp hpq
  have hE : Int.log 2 p / 2 ≤ Int.log 2 q / 2 := Int.ediv_le_ediv (by norm_num) hlog
  rcases hE.eq_or_lt with he | hlt
  · rw [sqrtQ_eq, sqrtQ_eq, he]
    refine mul_le_mul_of_nonneg_right ?_ (two_zpow_pos _).le
    exact_mod_cast rootNear_mono (div_le_div_of_nonneg_right hpq (four_zpow_pos _).le)
  · refine (sqrtQ_high).trans (le_trans ?_ (sqrtQ_low (lt_of_lt_of_le hp hpq)))
    exact zpow_le_zpow_right₀ (by norm_num) (by omega)

theorem sqrt_mono {p q : ℚ} (hp : 0 ≤ p) (hpq : p ≤ q) : sqrt (fin p) ≤ sqrt (fin q) := by
  unfold sqrt
  simp only
  rw [if_neg (not_lt.2 hp), if_neg (not_lt.2 (hp.trans hpq))]
  by_cases h0 : p = 0
  · rw [if_pos h0]
    split
    · exact le_rfl
    · rename_i hq0
      rw [fin_le_fin]
      have hq : 0 < q := lt_of_le_of_ne (hp.trans hpq) (Ne.symm hq0)
      exact (two_zpow_pos _).le.trans (sqrtQ_low hq)
  · have hp' : 0 < p := lt_of_le_of_ne hp (Ne.symm h0)
    rw [if_neg h0, if_neg (lt_of_lt_of_le hp' hpq).ne', fin_le_fin]
    exact sqrtQ_mono hp' hpq

theorem one_le_sqrt {q : ℚ} (h : 1 ≤ q) : 1 ≤ sqrt (fin q) := by
  have h1 := sqrt_mono (p := 1) (by norm_num) h
  have h2 : sqrt (fin 1) = 1 := by decide +kernel
  rw [h2] at h1
  exact h1

end Carmen.F64

import Verif.Model.Spatial
import Verif.F64.Lemmas
import Mathlib.Tactic.Linarith
import Mathlib.Tactic.Ring

/-!
# Distances and score-distances are numbers
-/

namespace Carmen

theorem ofRat_intCast {n : ℤ} (h : |n| ≤ 2 ^ 53) : F64.ofRat (n : ℚ) = F64.fin n := by
  refine F64.ofRat_of_valid ⟨F64.roundQ_intCast h, ?_, ?_⟩
  · refine lt_of_lt_of_le (neg_lt_neg F64.overflowBound_gt) ?_
    have : (-(2 ^ 53 : ℤ)) ≤ n := (abs_le.1 h).1
    exact_mod_cast this
  · refine lt_of_le_of_lt ?_ F64.overflowBound_gt
    have : n ≤ (2 ^ 53 : ℤ) := (abs_le.1 h).2
    exact_mod_cast this

theorem sub_ofNat {a b : ℕ} (ha : a < 2 ^ 16) (hb : b < 2 ^ 16) :
    F64.ofNat a - F64.ofNat b = F64.fin (((a : ℤ) - b : ℤ) : ℚ) := by
  rw [F64.ofNat_eq (by omega), F64.ofNat_eq (by omega)]
  show F64.ofRat ((a : ℚ) + -(b : ℚ)) = _
  have h : ((a : ℚ) + -(b : ℚ)) = (((a : ℤ) - b : ℤ) : ℚ) := by push_cast; ring
  rw [h]
  refine ofRat_intCast ?_
  rw [abs_le]; constructor <;> omega

/-- The squared distance of two tiles is computed exactly. -/
theorem tileDist_eq {px py gx gy : ℕ} (h1 : px < 2 ^ 16) (h2 : py < 2 ^ 16) (h3 : gx < 2 ^ 16)
    (h4 : gy < 2 ^ 16) : tileDist px py gx gy =
      F64.sqrt (F64.fin ((((px : ℤ) - gx) ^ 2 + ((py : ℤ) - gy) ^ 2 : ℤ) : ℚ)) := by
  unfold tileDist
  simp only
  rw [sub_ofNat h1 h3, sub_ofNat h2 h4]
  have hsq : ∀ a b : ℕ, a < 2 ^ 16 → b < 2 ^ 16 →
      0 ≤ ((a : ℤ) - b) ^ 2 ∧ ((a : ℤ) - b) ^ 2 ≤ 2 ^ 32 := by
    intro a b ha hb
    refine ⟨sq_nonneg _, ?_⟩
    have : ((a : ℤ) - b) ^ 2 ≤ (2 ^ 16) ^ 2 := by
      rw [sq_le_sq]
      rw [abs_of_pos (show (0:ℤ) < 2 ^ 16 by norm_num), abs_le]
      constructor <;> omega
    calc _ ≤ _ := this
      _ = _ := by norm_num
  have m : ∀ a b : ℕ, a < 2 ^ 16 → b < 2 ^ 16 →
      F64.fin (((a : ℤ) - b : ℤ) : ℚ) * F64.fin (((a : ℤ) - b : ℤ) : ℚ) =
        F64.fin ((((a : ℤ) - b) ^ 2 : ℤ) : ℚ) := by
    intro a b ha hb
    show F64.ofRat _ = _
    rw [← Int.cast_mul, ← sq]
    have := hsq a b ha hb
    refine ofRat_intCast ?_
    rw [abs_le]; constructor <;> omega
  rw [m px gx h1 h3, m py gy h2 h4]
  congr 1
  show F64.ofRat _ = _
  rw [← Int.cast_add]
  have e1 := hsq px gx h1 h3
  have e2 := hsq py gy h2 h4
  refine ofRat_intCast ?_
  rw [abs_le]; constructor <;> omega

theorem sqrtQ_nonneg (q : ℚ) : 0 ≤ F64.sqrtQ q := by
  unfold F64.sqrtQ
  simp only
  exact mul_nonneg (Nat.cast_nonneg _) (F64.two_zpow_pos _).le

theorem sqrt_fin {q : ℚ} (h : 0 ≤ q) : ∃ r : ℚ, F64.sqrt (F64.fin q) = F64.fin r ∧ 0 ≤ r := by
  unfold F64.sqrt
  simp only
  rw [if_neg (not_lt.2 h)]
  by_cases h0 : q = 0
  · rw [if_pos h0]; exact ⟨0, rfl, le_rfl⟩
  · rw [if_neg h0]; exact ⟨_, rfl, sqrtQ_nonneg q⟩

theorem tileDist_fin {px py gx gy : ℕ} (h1 : px < 2 ^ 16) (h2 : py < 2 ^ 16) (h3 : gx < 2 ^ 16)
    (h4 : gy < 2 ^ 16) : ∃ q : ℚ, tileDist px py gx gy = F64.fin q ∧ 0 ≤ q := by
  rw [tileDist_eq h1 h2 h3 h4]
  refine sqrt_fin ?_
  exact_mod_cast add_nonneg (sq_nonneg _) (sq_nonneg _)

/-- Tiles per mile are positive numbers up to zoom 16. -/
theorem tilesPerMile_pos {zoom : ℕ} (h : zoom ≤ 16) :
    ∃ q : ℚ, tilesPerMile zoom = F64.fin q ∧ 0 < q ∧ (F64.fin q).Valid := by
  have key : ∀ z : Fin 17, (match tilesPerMile z with
    | .fin q => decide (0 < q ∧ (F64.fin q).Valid)
    | _ => false) = true := by decide +kernel
  have := key ⟨zoom, by omega⟩
  simp only at this
  cases ht : tilesPerMile zoom with
  | nan => rw [ht] at this; simp at this
  | inf s => rw [ht] at this; simp at this
  | fin q =>
    rw [ht] at this
    simp only [decide_eq_true_eq] at this
    exact ⟨q, rfl, this⟩

theorem proximityRadius_ne_nan {zoom : ℕ} {radius : F64} (hz : zoom ≤ 16) (hr : radius ≠ .nan) :
    proximityRadius zoom radius ≠ .nan := by
  unfold proximityRadius
  obtain ⟨q, hq, hp, _⟩ := tilesPerMile_pos hz
  rw [hq]
  cases radius with
  | nan => exact absurd rfl hr
  | inf s =>
    show (if q = 0 then F64.nan else F64.inf (s != decide (q < 0))) ≠ .nan
    rw [if_neg hp.ne']; simp
  | fin r => exact F64.ofRat_ne_nan _

/-- The numerator of a score-distance. -/
def scoreTerm (score : ℕ) : F64 := (lit 6 * ePowAt score / ePowAt 7) + 1

theorem scoreTerm_pos {score : ℕ} (h : score ≤ 7) :
    ∃ q : ℚ, scoreTerm score = F64.fin q ∧ 1 ≤ q ∧ q ≤ 7 := by
  have key : ∀ s : Fin 8, (match scoreTerm s with
    | .fin q => decide (1 ≤ q ∧ q ≤ 7)
    | _ => false) = true := by decide +kernel
  have := key ⟨score, by omega⟩
  simp only at this
  cases ht : scoreTerm score with
  | nan => rw [ht] at this; simp at this
  | inf s => rw [ht] at this; simp at this
  | fin q =>
    rw [ht] at this
    simp only [decide_eq_true_eq] at this
    exact ⟨q, rfl, this⟩

/-- The distance after the minimum is applied (spatial.rs:588-590). -/
def atLeast (d : F64) : F64 := if F64.flt d 1 then lit 0.8 else d

theorem atLeast_pos {d : F64} (hd : ∃ q : ℚ, d = F64.fin q ∧ 0 ≤ q) :
    ∃ q : ℚ, atLeast d = F64.fin q ∧ 0 < q := by
  obtain ⟨q, rfl, hq⟩ := hd
  unfold atLeast
  by_cases h : F64.flt (F64.fin q) 1 = true
  · rw [if_pos h]
    have : (match lit 0.8 with
      | .fin q => decide (0 < q)
      | _ => false) = true := by decide +kernel
    cases ht : lit 0.8 with
    | nan => rw [ht] at this; simp at this
    | inf s => rw [ht] at this; simp at this
    | fin r =>
      rw [ht] at this
      exact ⟨r, rfl, by simpa using this⟩
  · rw [if_neg h]
    refine ⟨q, rfl, ?_⟩
    have h1 : ¬ q < 1 := by
      intro hlt
      apply h
      unfold F64.flt
      rw [decide_eq_true_eq]
      refine ⟨by simp, by rw [F64.one_def]; simp, ?_⟩
      rw [F64.one_def, F64.fin_lt_fin]; exact hlt
    linarith

theorem scoredist_eq (zoom : ℕ) (d : F64) (score : ℕ) (radius : F64) :
    scoredist zoom d score radius =
      scoreTerm (if 7 < score then 7 else score) /
        (if F64.flt 1 (atLeast d / proximityRadius (if zoom < 6 then 6 else zoom) radius) then 1
          else atLeast d / proximityRadius (if zoom < 6 then 6 else zoom) radius) := rfl

theorem scoredist_ne_nan {zoom score : ℕ} {d radius : F64}
    (hd : ∃ q : ℚ, d = F64.fin q ∧ 0 ≤ q) (hz : zoom ≤ 16) (hr : radius ≠ .nan) :
    scoredist zoom d score radius ≠ .nan := by
  rw [scoredist_eq]
  obtain ⟨n, hn, hn1, _⟩ := scoreTerm_pos (score := if 7 < score then 7 else score)
    (by split <;> omega)
  obtain ⟨q, hq, hq0⟩ := atLeast_pos hd
  have hR := proximityRadius_ne_nan (zoom := if zoom < 6 then 6 else zoom) (radius := radius)
    (by split <;> omega) hr
  rw [hn, hq]
  generalize proximityRadius (if zoom < 6 then 6 else zoom) radius = R at *
  have hratio : F64.fin q / R ≠ .nan := by
    cases R with
    | nan => exact absurd rfl hR
    | inf s => show F64.fin 0 ≠ .nan; simp
    | fin r =>
      show (if r = 0 then (if q = 0 then F64.nan else F64.inf (decide (q < 0)))
        else F64.ofRat (q / r)) ≠ .nan
      split
      · rw [if_neg hq0.ne']; simp
      · exact F64.ofRat_ne_nan _
  generalize F64.fin q / R = ratio at *
  have hdiv : ∀ x : F64, x ≠ .nan → F64.fin n / x ≠ .nan := by
    intro x hx
    cases x with
    | nan => exact absurd rfl hx
    | inf s => show F64.fin 0 ≠ .nan; simp
    | fin r =>
      show (if r = 0 then (if n = 0 then F64.nan else F64.inf (decide (n < 0)))
        else F64.ofRat (n / r)) ≠ .nan
      split
      · rw [if_neg (by linarith)]; simp
      · exact F64.ofRat_ne_nan _
  split
  · exact hdiv _ (by rw [F64.one_def]; simp)
  · exact hdiv _ hratio

end Carmen

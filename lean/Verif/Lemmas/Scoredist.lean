import Verif.F64.Sqrt
import Verif.Lemmas.Distance

/-!
# Monotonicity of the score-distance
-/

namespace Carmen

open F64

/-- The ratio after the cap at 1 (spatial.rs:592-595). -/
def capRatio (x : F64) : F64 := if F64.flt 1 x then 1 else x

theorem capRatio_eq {x : F64} (h : x ≠ .nan) : capRatio x = min 1 x := by
  unfold capRatio F64.flt
  by_cases hx : (1 : F64) < x
  · rw [if_pos (by rw [decide_eq_true_eq]; exact ⟨by rw [one_def]; simp, h, hx⟩), min_eq_left hx.le]
  · rw [if_neg (by rw [decide_eq_true_eq]; exact fun hc => hx hc.2.2), min_eq_right (not_lt.1 hx)]

theorem lit_08 : ∃ q : ℚ, lit 0.8 = .fin q ∧ 3 / 4 ≤ q ∧ q ≤ 1 := by
  have : (match lit 0.8 with
      | .fin q => decide (3 / 4 ≤ q ∧ q ≤ 1)
      | _ => false) = true := by decide +kernel
  cases ht : lit 0.8 with
  | nan => rw [ht] at this; simp at this
  | inf s => rw [ht] at this; simp at this
  | fin r =>
    rw [ht] at this
    simp only [decide_eq_true_eq] at this
    exact ⟨r, rfl, this⟩

theorem flt_one_iff {d : F64} (h : d ≠ .nan) : F64.flt d 1 = true ↔ d < 1 := by
  unfold F64.flt
  rw [decide_eq_true_eq]
  exact ⟨fun hc => hc.2.2, fun hc => ⟨h, by rw [one_def]; simp, hc⟩⟩

theorem atLeast_cases {d : F64} (h : d ≠ .nan) :
    (∃ a : ℚ, atLeast d = .fin a ∧ 3 / 4 ≤ a) ∨ atLeast d = .inf false := by
  unfold atLeast
  by_cases hd : d < 1
  · rw [if_pos ((flt_one_iff h).2 hd)]
    obtain ⟨q, hq, h1, _⟩ := lit_08
    exact Or.inl ⟨q, hq, h1⟩
  · rw [if_neg (fun hc => hd ((flt_one_iff h).1 hc))]
    rw [not_lt] at hd
    rw [one_def] at hd
    cases d with
    | nan => exact absurd rfl h
    | inf s =>
      cases s with
      | false => exact Or.inr rfl
      | true => exact absurd hd (not_le.2 ninf_lt_fin)
    | fin a =>
      rw [fin_le_fin] at hd
      exact Or.inl ⟨a, rfl, by linarith⟩

theorem ne_nan_of_le {a b : F64} (h : a ≤ b) (hb : b ≠ .nan) : a ≠ .nan := by
  rintro rfl
  exact hb (le_antisymm (le_nan b) h)

theorem atLeast_mono {d d' : F64} (hd : d ≠ .nan) (h : d' ≤ d) : atLeast d' ≤ atLeast d := by
  have hd' := ne_nan_of_le h hd
  unfold atLeast
  obtain ⟨q, hq, _, h1⟩ := lit_08
  have hlit : lit 0.8 ≤ 1 := by rw [hq, one_def, fin_le_fin]; exact h1
  by_cases c : d < 1
  · rw [if_pos ((flt_one_iff hd).2 c), if_pos ((flt_one_iff hd').2 (lt_of_le_of_lt h c))]
  · rw [if_neg (fun hc => c ((flt_one_iff hd).1 hc))]
    by_cases c' : d' < 1
    · rw [if_pos ((flt_one_iff hd').2 c')]
      exact hlit.trans (not_lt.1 c)
    · rw [if_neg (fun hc => c' ((flt_one_iff hd').1 hc))]
      exact h

theorem ratio_ne_nan {d : F64} {r : ℚ} (h : d ≠ .nan) :
    atLeast d / F64.fin r ≠ .nan := by
  rcases atLeast_cases h with ⟨a, ha, h1⟩ | ha
  · rw [ha]
    show (if r = 0 then (if a = 0 then F64.nan else F64.inf (decide (a < 0)))
        else F64.ofRat (a / r)) ≠ .nan
    split
    · rw [if_neg (by linarith)]; simp
    · exact F64.ofRat_ne_nan _
  · rw [ha]
    show F64.inf _ ≠ .nan
    simp

theorem ratio_mono {d d' : F64} {r : ℚ} (hd : d ≠ .nan) (hr : 0 ≤ r) (h : d' ≤ d) :
    atLeast d' / F64.fin r ≤ atLeast d / F64.fin r := by
  have hd' := ne_nan_of_le h hd
  have hm := atLeast_mono hd h
  have hinf : (F64.inf false) / F64.fin r = .inf false := by
    show F64.inf (false != decide (r < 0)) = _
    rw [decide_eq_false (not_lt.2 hr)]; rfl
  rcases atLeast_cases hd with ⟨a, ha, h1⟩ | ha
  · rcases atLeast_cases hd' with ⟨a', ha', h1'⟩ | ha'
    · rw [ha, ha', fin_le_fin] at hm
      rw [ha, ha']
      rcases hr.eq_or_lt with h0 | h0
      · show (if r = 0 then (if a' = 0 then F64.nan else F64.inf (decide (a' < 0)))
          else F64.ofRat (a' / r)) ≤ (if r = 0 then (if a = 0 then F64.nan
            else F64.inf (decide (a < 0))) else F64.ofRat (a / r))
        rw [if_pos h0.symm, if_pos h0.symm, if_neg (by linarith), if_neg (by linarith),
          decide_eq_false (by linarith), decide_eq_false (by linarith)]
      · exact div_mono (by linarith) hm h0 le_rfl
    · rw [ha, ha'] at hm
      exact absurd hm not_inf_le_fin
  · rw [ha, hinf]
    exact le_inf_of_ne_nan (ratio_ne_nan hd')

/-- Powers of two in range are floating point numbers. -/
theorem ofRat_two_zpow {e : ℤ} (h1 : -1074 ≤ e) (h2 : e < 1024) : ofRat (2 ^ e) = .fin (2 ^ e) := by
  refine ofRat_of_valid ⟨?_, ?_, ?_⟩
  · have := roundQ_of_mul_pow (m := 1) (e := e) (by norm_num) h1
    simpa using this
  · exact lt_trans (neg_lt_zero.2 overflowBound_pos) (two_zpow_pos e)
  · show (2 : ℚ) ^ e < 2 ^ 1024
    rw [← zpow_natCast]
    exact zpow_lt_zpow_right₀ (by norm_num) (by exact_mod_cast h2)

theorem ratio_low {d : F64} {r : ℚ} {e : ℤ} (hd : d ≠ .nan) (hr : 0 ≤ r) (hre : r ≤ 2 ^ e)
    (h1 : -1024 < e) (h2 : e ≤ 1024) : F64.fin (2 ^ (-e - 1)) ≤ atLeast d / F64.fin r := by
  rcases atLeast_cases hd with ⟨a, ha, ha1⟩ | ha
  · rw [ha]
    rcases hr.eq_or_lt with h0 | h0
    · show _ ≤ (if r = 0 then (if a = 0 then F64.nan
            else F64.inf (decide (a < 0))) else F64.ofRat (a / r))
      rw [if_pos h0.symm, if_neg (by linarith), decide_eq_false (by linarith)]
      exact fin_le_inf
    · rw [div_fin h0.ne', ← ofRat_two_zpow (by omega) (by omega)]
      refine ofRat_mono ?_
      rw [le_div_iff₀ h0]
      have h3 : (2 : ℚ) ^ (-e - 1) * r ≤ 2 ^ (-e - 1) * 2 ^ e :=
        mul_le_mul_of_nonneg_left hre (two_zpow_pos _).le
      have h4 : (2 : ℚ) ^ (-e - 1) * 2 ^ e = 1 / 2 := by
        rw [← zpow_add₀ (by norm_num), show -e - 1 + e = -1 by ring]
        norm_num
      linarith
  · rw [ha]
    show _ ≤ F64.inf (false != decide (r < 0))
    rw [decide_eq_false (not_lt.2 hr)]
    exact fin_le_inf

theorem scoreTerm_mono {s s' : ℕ} (h : s ≤ s') (h' : s' ≤ 7) : scoreTerm s ≤ scoreTerm s' := by
  have key : ∀ a b : Fin 8, a ≤ b → scoreTerm a ≤ scoreTerm b := by decide +kernel
  exact key ⟨s, by omega⟩ ⟨s', by omega⟩ h

/-- A finite radius in tiles is below `2^1024`. -/
theorem proximityRadius_lt {zoom : ℕ} {radius : F64} {r : ℚ}
    (h : proximityRadius zoom radius = .fin r) : r ≤ 2 ^ (1024 : ℤ) := by
  unfold proximityRadius at h
  have key : ∀ a b : F64, a * b = .fin r → (F64.fin r).Valid := by
    intro a b hab
    cases a <;> cases b <;> simp only [mul_def, F64.mul] at hab
    · cases hab
    · cases hab
    · cases hab
    · cases hab
    · cases hab
    · split at hab <;> cases hab
    · cases hab
    · split at hab <;> cases hab
    · rw [← hab]; exact ofRat_valid _
  have := (key _ _ h).2.2
  have h2 : (2 : ℚ) ^ (1024 : ℤ) = overflowBound := rfl
  rw [h2]
  exact this.le

/-- The capped ratio is a positive number of at most 1. -/
theorem capRatio_fin {d : F64} {r : ℚ} {e : ℤ} (hd : d ≠ .nan) (hr : 0 ≤ r) (hre : r ≤ 2 ^ e)
    (h1 : -1 ≤ e) (h2 : e ≤ 1024) :
    ∃ q : ℚ, capRatio (atLeast d / F64.fin r) = .fin q ∧ 2 ^ (-e - 1) ≤ q ∧ q ≤ 1 := by
  have hn := ratio_ne_nan (r := r) hd
  have hl := ratio_low hd hr hre (by omega) h2
  rw [capRatio_eq hn]
  have h3 : (2 : ℚ) ^ (-e - 1) ≤ 1 := by
    calc (2 : ℚ) ^ (-e - 1) ≤ 2 ^ (0 : ℤ) := zpow_le_zpow_right₀ (by norm_num) (by omega)
      _ = 1 := zpow_zero _
  rcases le_total (1 : F64) (atLeast d / F64.fin r) with hc | hc
  · rw [min_eq_left hc]
    exact ⟨1, rfl, h3, le_rfl⟩
  · rw [min_eq_right hc]
    generalize atLeast d / F64.fin r = x at *
    cases x with
    | nan => exact absurd rfl hn
    | inf s =>
      cases s with
      | false => rw [one_def] at hc; exact absurd hc not_inf_le_fin
      | true => exact absurd hl (not_le.2 ninf_lt_fin)
    | fin q =>
      rw [fin_le_fin] at hl
      rw [one_def, fin_le_fin] at hc
      exact ⟨q, rfl, hl, hc⟩

end Carmen

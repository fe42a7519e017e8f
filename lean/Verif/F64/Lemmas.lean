import Verif.F64.Basic
import Mathlib.Tactic.Linarith
import Mathlib.Tactic.Positivity
import Mathlib.Tactic.FieldSimp
import Mathlib.Tactic.Ring
import Mathlib.Algebra.Order.Field.Rat
import Mathlib.Algebra.Order.Floor.Ring
import Mathlib.Tactic.NormNum.Pow

/-! Laws of the `f64` model: rounding is monotone, hence so are the operations. -/

namespace Carmen.F64

/-! ## Rounding to an integer -/

theorem roundHalfEven_mono : Monotone roundHalfEven := by
  intro a b hab
  have hf : ⌊a⌋ ≤ ⌊b⌋ := Int.floor_mono hab
  have ha0 := Int.floor_le a
  have ha1 := Int.lt_floor_add_one a
  have hb0 := Int.floor_le b
  have hb1 := Int.lt_floor_add_one b
  rcases hf.lt_or_eq with h | h
  · have h' : ⌊a⌋ + 1 ≤ ⌊b⌋ := h
    have h1 : roundHalfEven a ≤ ⌊a⌋ + 1 := by
      unfold roundHalfEven; split_ifs <;> omega
    have h2 : ⌊b⌋ ≤ roundHalfEven b := by
      unfold roundHalfEven; split_ifs <;> omega
    omega
  · unfold roundHalfEven
    rw [h] at *
    split_ifs <;> first | omega | (exfalso; linarith)

theorem roundHalfEven_intCast (n : ℤ) : roundHalfEven n = n := by
  unfold roundHalfEven; simp

theorem roundHalfEven_neg (q : ℚ) : roundHalfEven (-q) = - roundHalfEven q := by
  have h0 := Int.floor_le q
  have h1 := Int.lt_floor_add_one q
  by_cases hq : (⌊q⌋ : ℚ) = q
  · rw [← hq, ← Int.cast_neg, roundHalfEven_intCast, roundHalfEven_intCast]
  · have hfl : ⌊-q⌋ = -⌊q⌋ - 1 := by
      rw [Int.floor_eq_iff]
      push_cast
      refine ⟨by linarith, ?_⟩
      have : (⌊q⌋ : ℚ) < q := lt_of_le_of_ne h0 hq
      linarith
    unfold roundHalfEven
    rw [hfl]
    push_cast
    split_ifs <;> first | omega | (exfalso; linarith)

theorem roundHalfEven_nonneg {q : ℚ} (h : 0 ≤ q) : 0 ≤ roundHalfEven q := by
  have := roundHalfEven_mono h
  rwa [show (0:ℚ) = ((0:ℤ):ℚ) by simp, roundHalfEven_intCast] at this

theorem le_roundHalfEven {n : ℤ} {q : ℚ} (h : (n : ℚ) ≤ q) : n ≤ roundHalfEven q := by
  have := roundHalfEven_mono h
  rwa [roundHalfEven_intCast] at this

theorem roundHalfEven_le {n : ℤ} {q : ℚ} (h : q ≤ n) : roundHalfEven q ≤ n := by
  have := roundHalfEven_mono h
  rwa [roundHalfEven_intCast] at this

/-! ## Rounding to a double -/

theorem two_zpow_pos (e : ℤ) : (0:ℚ) < 2 ^ e := zpow_pos (by norm_num) e

theorem roundQ_zero : roundQ 0 = 0 := by
  unfold roundQ; simp [show roundHalfEven 0 = 0 from by simpa using roundHalfEven_intCast 0]

theorem roundQ_neg (q : ℚ) : roundQ (-q) = - roundQ q := by
  unfold roundQ
  rw [abs_neg, neg_div, roundHalfEven_neg]; push_cast; ring

theorem roundQ_nonneg {q : ℚ} (h : 0 ≤ q) : 0 ≤ roundQ q := by
  unfold roundQ
  have := two_zpow_pos (ulpExp |q|)
  have h1 : (0:ℤ) ≤ roundHalfEven (q / 2 ^ ulpExp |q|) := roundHalfEven_nonneg (by positivity)
  have h2 : (0:ℚ) ≤ (roundHalfEven (q / 2 ^ ulpExp |q|) : ℚ) := by exact_mod_cast h1
  positivity

theorem log_lt {a : ℚ} : a < 2 ^ (Int.log 2 a + 1) := by
  simpa using Int.lt_zpow_succ_log_self (b := 2) (by norm_num) a

theorem log_le {a : ℚ} (h : 0 < a) : (2:ℚ) ^ Int.log 2 a ≤ a := by
  simpa using Int.zpow_log_le_self (b := 2) (by norm_num) h

/-- Everything of magnitude below `2^(e+1)`, with `e` at least the exponent range's
bottom, rounds to at most `2^(e+1)`. -/
theorem roundQ_le_pow {a : ℚ} (h : 0 < a) :
    roundQ a ≤ 2 ^ (max (Int.log 2 a) (-1022) + 1) := by
  unfold roundQ
  rw [abs_of_pos h]
  set e := max (Int.log 2 a) (-1022) with he
  have hu : ulpExp a = e - 52 := rfl
  rw [hu]
  have hpos := two_zpow_pos (e - 52)
  have hlt : a < 2 ^ (e + 1) :=
    lt_of_lt_of_le log_lt (zpow_le_zpow_right₀ (by norm_num) (by omega))
  have hsplit : (2:ℚ) ^ (e + 1) = 2 ^ (53:ℕ) * 2 ^ (e - 52) := by
    rw [← zpow_natCast, ← zpow_add₀ (by norm_num)]; congr 1; push_cast; ring
  have h1 : a / 2 ^ (e - 52) ≤ ((2 ^ 53 : ℤ) : ℚ) := by
    rw [div_le_iff₀ hpos, show ((2 ^ 53 : ℤ) : ℚ) = 2 ^ 53 by norm_num, ← hsplit]; exact hlt.le
  have h2 := roundHalfEven_le h1
  rw [hsplit]
  have h3 : (roundHalfEven (a / 2 ^ (e - 52)) : ℚ) ≤ 2 ^ 53 := by exact_mod_cast h2
  exact mul_le_mul_of_nonneg_right h3 hpos.le

theorem pow_le_roundQ {a : ℚ} (h : 0 < a) (hn : -1022 ≤ Int.log 2 a) :
    2 ^ Int.log 2 a ≤ roundQ a := by
  unfold roundQ
  rw [abs_of_pos h]
  set e := Int.log 2 a with he
  have hu : ulpExp a = e - 52 := by unfold ulpExp; rw [← he, max_eq_left hn]
  rw [hu]
  have hpos := two_zpow_pos (e - 52)
  have hle : 2 ^ e ≤ a := log_le h
  have hsplit : (2:ℚ) ^ e = 2 ^ (52:ℕ) * 2 ^ (e - 52) := by
    rw [← zpow_natCast, ← zpow_add₀ (by norm_num)]; congr 1; push_cast; ring
  have h1 : ((2 ^ 52 : ℤ) : ℚ) ≤ a / 2 ^ (e - 52) := by
    rw [le_div_iff₀ hpos, show ((2 ^ 52 : ℤ) : ℚ) = 2 ^ 52 by norm_num, ← hsplit]; exact hle
  have h2 := le_roundHalfEven h1
  rw [hsplit]
  have h3 : (2:ℚ) ^ 52 ≤ (roundHalfEven (a / 2 ^ (e - 52)) : ℚ) := by exact_mod_cast h2
  exact mul_le_mul_of_nonneg_right h3 hpos.le

theorem roundQ_mono_pos {a b : ℚ} (ha : 0 < a) (hab : a ≤ b) : roundQ a ≤ roundQ b := by
  have hb : 0 < b := lt_of_lt_of_le ha hab
  have hlog : Int.log 2 a ≤ Int.log 2 b := Int.log_mono_right ha hab
  rcases eq_or_ne (ulpExp a) (ulpExp b) with h | h
  · unfold roundQ
    rw [abs_of_pos ha, abs_of_pos hb, h]
    have hpos := two_zpow_pos (ulpExp b)
    have : roundHalfEven (a / 2 ^ ulpExp b) ≤ roundHalfEven (b / 2 ^ ulpExp b) :=
      roundHalfEven_mono (div_le_div_of_nonneg_right hab hpos.le)
    have h2 : (roundHalfEven (a / 2 ^ ulpExp b) : ℚ) ≤ roundHalfEven (b / 2 ^ ulpExp b) := by
      exact_mod_cast this
    exact mul_le_mul_of_nonneg_right h2 hpos.le
  · unfold ulpExp at h
    have hb2 : -1022 ≤ Int.log 2 b := by omega
    refine (roundQ_le_pow ha).trans (le_trans ?_ (pow_le_roundQ hb hb2))
    exact zpow_le_zpow_right₀ (by norm_num) (by omega)

/-- Rounding to a double is monotone. -/
theorem roundQ_mono : Monotone roundQ := by
  intro a b hab
  rcases lt_trichotomy a 0 with ha | ha | ha
  · rcases lt_or_ge b 0 with hb | hb
    · have := roundQ_mono_pos (a := -b) (b := -a) (by linarith) (by linarith)
      rw [roundQ_neg, roundQ_neg] at this; linarith
    · have h1 := roundQ_nonneg hb
      have h2 := roundQ_nonneg (q := -a) (by linarith)
      rw [roundQ_neg] at h2; linarith
  · subst ha; rw [roundQ_zero]; exact roundQ_nonneg hab
  · exact roundQ_mono_pos ha hab

/-- A rational with a 53-bit significand in range is a double. -/
theorem roundQ_of_mul_pow {m : ℤ} {e : ℤ} (hm : |m| ≤ 2 ^ 53) (he : -1074 ≤ e) :
    roundQ (m * 2 ^ e) = m * 2 ^ e := by
  rcases eq_or_ne m 0 with h0 | h0
  · subst h0; simp [roundQ_zero]
  have hmq : (0:ℚ) < |(m:ℚ)| := by positivity
  have hm' : |(m:ℚ)| ≤ 2 ^ 53 := by exact_mod_cast hm
  have hepos := two_zpow_pos e
  set q : ℚ := m * 2 ^ e with hq
  have habs : |q| = |(m:ℚ)| * 2 ^ e := by rw [hq, abs_mul, abs_of_pos hepos]
  have hqpos : 0 < |q| := by rw [habs]; positivity
  -- the unit in the last place is at most 2^e, unless |m| = 2^53
  by_cases hlt : |(m:ℚ)| < 2 ^ 53
  · have hlog : Int.log 2 |q| < e + 53 := by
      have h1 := log_le hqpos
      have h2 : |q| < 2 ^ (e + 53) := by
        rw [habs, zpow_add₀ (by norm_num), mul_comm]
        refine mul_lt_mul_of_pos_left ?_ hepos
        calc |(m:ℚ)| < 2 ^ (53:ℕ) := hlt
          _ = 2 ^ (53:ℤ) := by norm_cast
      exact (zpow_lt_zpow_iff_right₀ (by norm_num : (1:ℚ) < 2)).1 (lt_of_le_of_lt h1 h2)
    have hule : ulpExp |q| ≤ e := by unfold ulpExp; omega
    obtain ⟨k, hk⟩ : ∃ k : ℕ, e = ulpExp |q| + k := ⟨(e - ulpExp |q|).toNat, by omega⟩
    have hdiv : q / 2 ^ ulpExp |q| = ((m * 2 ^ k : ℤ) : ℚ) := by
      have hp := two_zpow_pos (ulpExp |q|)
      rw [div_eq_iff hp.ne']
      push_cast
      have hse : (2:ℚ) ^ e = 2 ^ k * 2 ^ ulpExp |q| := by
        rw [hk, zpow_add₀ (by norm_num), zpow_natCast]; ring
      rw [mul_assoc, ← hse]
    unfold roundQ
    rw [hdiv, roundHalfEven_intCast, ← hdiv]
    exact div_mul_cancel₀ _ (two_zpow_pos _).ne'
  · have hmeq : |(m:ℚ)| = 2 ^ 53 := le_antisymm hm' (not_lt.1 hlt)
    have hqeq : |q| = 2 ^ (e + 53) := by
      rw [habs, hmeq, zpow_add₀ (by norm_num), mul_comm]; norm_cast
    have hlog : Int.log 2 |q| = e + 53 := by
      rw [hqeq]; simpa using Int.log_zpow (R := ℚ) (b := 2) (by norm_num) (e + 53)
    have hu : ulpExp |q| = e + 1 := by unfold ulpExp; omega
    have hdiv : ∃ z : ℤ, q / 2 ^ ulpExp |q| = z := by
      rw [hu]
      rcases abs_choice (m:ℚ) with h | h
      · refine ⟨2 ^ 52, ?_⟩
        rw [hq, ← h, hmeq, zpow_add₀ (by norm_num)]; field_simp; norm_num
      · refine ⟨-2 ^ 52, ?_⟩
        have : (m:ℚ) = -2 ^ 53 := by rw [← hmeq, h]; ring
        rw [hq, this, zpow_add₀ (by norm_num)]; field_simp; norm_num
    obtain ⟨z, hz⟩ := hdiv
    unfold roundQ
    rw [hz, roundHalfEven_intCast, ← hz]
    exact div_mul_cancel₀ _ (two_zpow_pos _).ne'

theorem roundQ_natCast {n : ℕ} (h : n ≤ 2 ^ 53) : roundQ n = n := by
  have := roundQ_of_mul_pow (m := n) (e := 0) (by simpa using (by exact_mod_cast h)) (by norm_num)
  simpa using this

theorem roundQ_intCast {n : ℤ} (h : |n| ≤ 2 ^ 53) : roundQ n = n := by
  simpa using roundQ_of_mul_pow (m := n) (e := 0) h (by norm_num)

/-- Rounding yields a double, so rounding twice changes nothing. -/
theorem roundQ_roundQ (q : ℚ) : roundQ (roundQ q) = roundQ q := by
  rcases eq_or_ne q 0 with h0 | h0
  · simp [h0, roundQ_zero]
  have hq : 0 < |q| := abs_pos.2 h0
  have hu : -1074 ≤ ulpExp |q| := by unfold ulpExp; omega
  rw [show roundQ q = (roundHalfEven (q / 2 ^ ulpExp |q|) : ℚ) * 2 ^ ulpExp |q| from rfl]
  apply roundQ_of_mul_pow _ hu
  have hp := two_zpow_pos (ulpExp |q|)
  have hlt : |q| < 2 ^ (53:ℕ) * 2 ^ ulpExp |q| := by
    rw [← zpow_natCast, ← zpow_add₀ (by norm_num)]
    exact lt_of_lt_of_le log_lt (zpow_le_zpow_right₀ (by norm_num) (by unfold ulpExp; omega))
  have h1 : |(q / 2 ^ ulpExp (|q|))| ≤ 2 ^ 53 := by
    rw [abs_div, abs_of_pos hp, div_le_iff₀ hp]; exact hlt.le
  rw [abs_le] at h1 ⊢
  constructor
  · apply le_roundHalfEven; push_cast; exact h1.1
  · apply roundHalfEven_le; push_cast; exact h1.2

/-! ## Order -/

@[simp] theorem fin_le_fin {a b : ℚ} : fin a ≤ fin b ↔ a ≤ b := by
  rw [le_def]; simp [rank, Prod.Lex.toLex_le_toLex]

@[simp] theorem fin_lt_fin {a b : ℚ} : fin a < fin b ↔ a < b := by
  rw [lt_def]; simp [rank, Prod.Lex.toLex_lt_toLex]

theorem le_nan (a : F64) : a ≤ nan := by
  rw [le_def]
  cases a with
  | nan => exact le_rfl
  | inf s => cases s <;> simp [rank, Prod.Lex.toLex_le_toLex]
  | fin q => simp [rank, Prod.Lex.toLex_le_toLex]

theorem ninf_le (a : F64) : inf true ≤ a := by
  rw [le_def]
  cases a with
  | nan => simp [rank, Prod.Lex.toLex_le_toLex]
  | inf s => cases s <;> simp [rank, Prod.Lex.toLex_le_toLex]
  | fin q => simp [rank, Prod.Lex.toLex_le_toLex]

@[simp] theorem fin_le_inf {a : ℚ} : fin a ≤ inf false := by
  rw [le_def]; simp [rank, Prod.Lex.toLex_le_toLex]

@[simp] theorem fin_lt_inf {a : ℚ} : fin a < inf false := by
  rw [lt_def]; simp [rank, Prod.Lex.toLex_lt_toLex]

@[simp] theorem not_inf_le_fin {a : ℚ} : ¬ inf false ≤ fin a := not_le.2 fin_lt_inf

@[simp] theorem inf_lt_nan : inf false < nan := by
  rw [lt_def]; simp [rank, Prod.Lex.toLex_lt_toLex]

@[simp] theorem fin_lt_nan {a : ℚ} : fin a < nan := by
  rw [lt_def]; simp [rank, Prod.Lex.toLex_lt_toLex]

@[simp] theorem ninf_lt_fin {a : ℚ} : inf true < fin a := by
  rw [lt_def]; simp [rank, Prod.Lex.toLex_lt_toLex]

theorem le_inf_of_ne_nan {a : F64} (h : a ≠ nan) : a ≤ inf false := by
  cases a with
  | nan => exact absurd rfl h
  | inf s => cases s with
    | true => exact ninf_le _
    | false => exact le_rfl
  | fin q => exact fin_le_inf

theorem zero_def : (0 : F64) = fin 0 := rfl
theorem one_def : (1 : F64) = fin 1 := rfl

@[simp] theorem add_def (a b : F64) : a + b = add a b := rfl
@[simp] theorem mul_def (a b : F64) : a * b = mul a b := rfl
@[simp] theorem div_def (a b : F64) : a / b = div a b := rfl
@[simp] theorem sub_def (a b : F64) : a - b = sub a b := rfl

/-! ## Rounding into the type -/

theorem overflowBound_gt : (2:ℚ) ^ 53 < overflowBound := by
  unfold overflowBound
  exact pow_lt_pow_right₀ (by norm_num) (by norm_num)

theorem overflowBound_pos : 0 < overflowBound := lt_trans (by positivity) overflowBound_gt

theorem ofRounded_mono : Monotone ofRounded := by
  intro a b hab
  unfold ofRounded
  split_ifs with h1 h2 h3 h4 h5 h6
  · exact le_rfl
  · exfalso
    have := overflowBound_pos
    linarith
  · exfalso; linarith
  · exact ninf_le _
  · exact le_rfl
  · exact ninf_le _
  · exact fin_le_inf
  · exfalso; linarith
  · simpa using hab

theorem ofRat_mono : Monotone ofRat := fun _ _ h => ofRounded_mono (roundQ_mono h)

theorem ofRat_ne_nan (q : ℚ) : ofRat q ≠ nan := by
  unfold ofRat ofRounded; split_ifs <;> simp

theorem ofRat_valid (q : ℚ) : (ofRat q).Valid := by
  unfold ofRat ofRounded
  by_cases h1 : overflowBound ≤ roundQ q
  · rw [if_pos h1]; exact True.intro
  by_cases h2 : roundQ q ≤ -overflowBound
  · rw [if_neg h1, if_pos h2]; exact True.intro
  · rw [if_neg h1, if_neg h2]
    exact ⟨roundQ_roundQ q, not_le.1 h2, not_le.1 h1⟩

/-- Rounding a double gives the double. -/
theorem ofRat_of_valid {q : ℚ} (h : (fin q).Valid) : ofRat q = fin q := by
  obtain ⟨h1, h2, h3⟩ := h
  unfold ofRat ofRounded
  rw [h1, if_neg (not_le.2 h3), if_neg (not_le.2 h2)]

theorem ofRat_zero : ofRat 0 = 0 := by
  apply ofRat_of_valid; exact ⟨roundQ_zero, by simpa using overflowBound_pos, overflowBound_pos⟩

theorem ofNat_eq {n : ℕ} (h : n ≤ 2 ^ 53) : ofNat n = fin n := by
  apply ofRat_of_valid
  refine ⟨roundQ_natCast h, ?_, ?_⟩
  · have : (0:ℚ) ≤ n := by positivity
    have h2 := overflowBound_pos
    linarith
  · calc (n:ℚ) ≤ 2 ^ 53 := by exact_mod_cast h
      _ < overflowBound := overflowBound_gt

theorem valid_natCast {n : ℕ} (h : n ≤ 2 ^ 53) : (fin n).Valid := by
  have := ofRat_valid n
  rwa [show ofRat n = ofNat n from rfl, ofNat_eq h] at this

/-! ## Monotonicity of the operations on finite arguments -/

theorem IsFin.exists {a : F64} (h : a.IsFin) : ∃ q, a = fin q := by
  cases a with
  | fin q => exact ⟨q, rfl⟩
  | nan => exact h.elim
  | inf s => exact h.elim

@[simp] theorem isFin_fin (q : ℚ) : (fin q).IsFin := trivial

theorem add_mono {a b c d : F64} (ha : a.IsFin) (hb : b.IsFin) (hc : c.IsFin) (hd : d.IsFin)
    (h1 : a ≤ c) (h2 : b ≤ d) : a + b ≤ c + d := by
  obtain ⟨a, rfl⟩ := ha.exists
  obtain ⟨b, rfl⟩ := hb.exists
  obtain ⟨c, rfl⟩ := hc.exists
  obtain ⟨d, rfl⟩ := hd.exists
  rw [fin_le_fin] at h1 h2
  exact ofRat_mono (add_le_add h1 h2)

theorem sub_mono {a b c d : F64} (ha : a.IsFin) (hb : b.IsFin) (hc : c.IsFin) (hd : d.IsFin)
    (h1 : a ≤ c) (h2 : d ≤ b) : a - b ≤ c - d := by
  obtain ⟨a, rfl⟩ := ha.exists
  obtain ⟨b, rfl⟩ := hb.exists
  obtain ⟨c, rfl⟩ := hc.exists
  obtain ⟨d, rfl⟩ := hd.exists
  rw [fin_le_fin] at h1 h2
  exact ofRat_mono (by linarith : a + -b ≤ c + -d)

theorem mul_mono {a b c d : F64} (ha : a.IsFin) (hb : b.IsFin) (hc : c.IsFin) (hd : d.IsFin)
    (hb0 : 0 ≤ b) (hc0 : 0 ≤ c) (h1 : a ≤ c) (h2 : b ≤ d) : a * b ≤ c * d := by
  obtain ⟨a, rfl⟩ := ha.exists
  obtain ⟨b, rfl⟩ := hb.exists
  obtain ⟨c, rfl⟩ := hc.exists
  obtain ⟨d, rfl⟩ := hd.exists
  rw [zero_def, fin_le_fin] at hb0 hc0
  rw [fin_le_fin] at h1 h2
  exact ofRat_mono (mul_le_mul h1 h2 hb0 hc0)

theorem mul_nonneg' {a b : F64} (ha : a.IsFin) (hb : b.IsFin) (ha0 : 0 ≤ a) (hb0 : 0 ≤ b) :
    0 ≤ a * b := by
  obtain ⟨a, rfl⟩ := ha.exists
  obtain ⟨b, rfl⟩ := hb.exists
  rw [zero_def, fin_le_fin] at ha0 hb0
  rw [← ofRat_zero]
  exact ofRat_mono (mul_nonneg ha0 hb0)

/-- Scaling a non-negative double by at most one does not increase it. -/
theorem mul_le_right {a b : F64} (ha : a.IsFin) (hb : b.IsFin) (hv : b.Valid) (hb0 : 0 ≤ b)
    (h1 : a ≤ 1) : a * b ≤ b := by
  obtain ⟨a, rfl⟩ := ha.exists
  obtain ⟨b, rfl⟩ := hb.exists
  rw [zero_def, fin_le_fin] at hb0
  rw [one_def, fin_le_fin] at h1
  calc fin a * fin b = ofRat (a * b) := rfl
    _ ≤ ofRat b := ofRat_mono (by nlinarith)
    _ = fin b := ofRat_of_valid hv

theorem mul_le_left {a b : F64} (ha : a.IsFin) (hb : b.IsFin) (hv : a.Valid) (ha0 : 0 ≤ a)
    (h1 : b ≤ 1) : a * b ≤ a := by
  obtain ⟨a, rfl⟩ := ha.exists
  obtain ⟨b, rfl⟩ := hb.exists
  rw [zero_def, fin_le_fin] at ha0
  rw [one_def, fin_le_fin] at h1
  calc fin a * fin b = ofRat (a * b) := rfl
    _ ≤ ofRat a := ofRat_mono (by nlinarith)
    _ = fin a := ofRat_of_valid hv

theorem mul_one' {a : F64} (ha : a.IsFin) (hv : a.Valid) : a * 1 = a := by
  obtain ⟨a, rfl⟩ := ha.exists
  calc fin a * fin 1 = ofRat (a * 1) := rfl
    _ = ofRat a := by rw [mul_one]
    _ = fin a := ofRat_of_valid hv

theorem one_mul' {a : F64} (ha : a.IsFin) (hv : a.Valid) : 1 * a = a := by
  obtain ⟨a, rfl⟩ := ha.exists
  calc fin 1 * fin a = ofRat (1 * a) := rfl
    _ = ofRat a := by rw [one_mul]
    _ = fin a := ofRat_of_valid hv

theorem add_zero' {a : F64} (ha : a.IsFin) (hv : a.Valid) : a + 0 = a := by
  obtain ⟨a, rfl⟩ := ha.exists
  calc fin a + fin 0 = ofRat (a + 0) := rfl
    _ = ofRat a := by rw [add_zero]
    _ = fin a := ofRat_of_valid hv

theorem zero_add' {a : F64} (ha : a.IsFin) (hv : a.Valid) : 0 + a = a := by
  obtain ⟨a, rfl⟩ := ha.exists
  calc fin 0 + fin a = ofRat (0 + a) := rfl
    _ = ofRat a := by rw [zero_add]
    _ = fin a := ofRat_of_valid hv

/-- Adding a non-negative double does not decrease a double. -/
theorem le_add_right' {a b : F64} (ha : a.IsFin) (hb : b.IsFin) (hv : a.Valid) (hb0 : 0 ≤ b) :
    a ≤ a + b := by
  obtain ⟨a, rfl⟩ := ha.exists
  obtain ⟨b, rfl⟩ := hb.exists
  rw [zero_def, fin_le_fin] at hb0
  calc fin a = ofRat a := (ofRat_of_valid hv).symm
    _ ≤ ofRat (a + b) := ofRat_mono (by linarith)

end Carmen.F64

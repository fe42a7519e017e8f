import Verif.Lemmas.Scoredist

/-!
# C25: score-distance rewards closeness and score

The statements are about the floating point functions of spatial.rs themselves. The radius
"does not overflow" means that the radius in tiles, `proximityRadius (max zoom 6) radius`, is a
number `r ≥ 0`. Distances are any floating point values except NaN; the last two theorems are
about tile distances. -/

namespace Carmen

open F64

theorem zoomCap (zoom : ℕ) : (if zoom < 6 then 6 else zoom) = max zoom 6 := by
  split <;> omega

theorem scoreCap (score : ℕ) : (if 7 < score then 7 else score) = min score 7 := by
  split <;> omega

theorem scoredist_cap (zoom : ℕ) (d : F64) (score : ℕ) (radius : F64) :
    scoredist zoom d score radius =
      scoreTerm (min score 7) / capRatio (atLeast d / proximityRadius (max zoom 6) radius) := by
  rw [scoredist_eq, zoomCap, scoreCap]; rfl

/-- **C25** (monotone). A smaller distance or a larger score never lowers the
score-distance. -/
theorem C25_nearer_or_better {zoom score score' : ℕ} {d d' radius : F64} {r : ℚ}
    (hR : proximityRadius (max zoom 6) radius = .fin r) (hr : 0 ≤ r) (hd : d ≠ .nan)
    (hdd : d' ≤ d) (hs : score ≤ score') :
    scoredist zoom d score radius ≤ scoredist zoom d' score' radius := by
  rw [scoredist_cap, scoredist_cap, hR]
  have hd' := ne_nan_of_le hdd hd
  obtain ⟨q, hq, hq1, _⟩ := capRatio_fin hd hr (proximityRadius_lt hR) (by norm_num) le_rfl
  obtain ⟨q', hq', hq1', _⟩ := capRatio_fin hd' hr (proximityRadius_lt hR) (by norm_num) le_rfl
  have hmono : q' ≤ q := by
    have h := min_le_min_left (1 : F64) (ratio_mono hd hr hdd)
    rw [← capRatio_eq (ratio_ne_nan hd), ← capRatio_eq (ratio_ne_nan hd'), hq, hq',
      fin_le_fin] at h
    exact h
  have ht := scoreTerm_mono (s := min score 7) (s' := min score' 7) (by omega) (by omega)
  obtain ⟨n, hn, hn1, _⟩ := scoreTerm_pos (score := min score 7) (by omega)
  obtain ⟨n', hn', _, _⟩ := scoreTerm_pos (score := min score' 7) (by omega)
  rw [hn, hn', fin_le_fin] at ht
  rw [hq, hq', hn, hn']
  exact div_mono (by linarith) ht (lt_of_lt_of_le (two_zpow_pos _) hq1') hmono

/-- Scores above 7 count as 7. -/
theorem C25_score_cap {zoom score : ℕ} {d radius : F64} (h : 7 ≤ score) :
    scoredist zoom d score radius = scoredist zoom d 7 radius := by
  rw [scoredist_cap, scoredist_cap, min_eq_right h, min_self]

/-- **C25** (positive). The score-distance is at least 1, and it is a finite number unless the
radius in tiles is astronomically large (above `2^1000`). -/
theorem C25_finite_positive {zoom score : ℕ} {d radius : F64} {r : ℚ}
    (hR : proximityRadius (max zoom 6) radius = .fin r) (hr : 0 ≤ r) (hr2 : r ≤ 2 ^ (1000 : ℤ))
    (hd : d ≠ .nan) : ∃ v : ℚ, scoredist zoom d score radius = .fin v ∧ 1 ≤ v := by
  rw [scoredist_cap, hR]
  obtain ⟨q, hq, hq1, hq2⟩ := capRatio_fin hd hr hr2 (by norm_num) (by norm_num)
  obtain ⟨n, hn, hn1, hn2⟩ := scoreTerm_pos (score := min score 7) (by omega)
  have hq0 : 0 < q := lt_of_lt_of_le (two_zpow_pos _) hq1
  rw [hq, hn, div_fin hq0.ne']
  have h1 : (1 : ℚ) ≤ n / q := by rw [le_div_iff₀ hq0]; linarith
  have h2 : n / q ≤ 2 ^ (1004 : ℤ) := by
    rw [div_le_iff₀ hq0]
    have h3 : (2 : ℚ) ^ (1004 : ℤ) * 2 ^ (-(1000 : ℤ) - 1) = 8 := by
      rw [← zpow_add₀ (by norm_num)]; norm_num
    have h4 : (2 : ℚ) ^ (1004 : ℤ) * 2 ^ (-(1000 : ℤ) - 1) ≤ 2 ^ (1004 : ℤ) * q :=
      mul_le_mul_of_nonneg_left hq1 (two_zpow_pos _).le
    rw [h3] at h4
    exact le_trans (by linarith) h4
  have e1 := ofRat_mono h1
  have e2 := ofRat_mono h2
  rw [ofRat_two_zpow (by norm_num) (by norm_num)] at e2
  rw [show (1 : ℚ) = 2 ^ (0 : ℤ) by norm_num, ofRat_two_zpow (by norm_num) (by norm_num)] at e1
  cases hx : ofRat (n / q) with
  | nan => exact absurd hx (ofRat_ne_nan _)
  | inf s =>
    rw [hx] at e1 e2
    cases s with
    | false => exact absurd e2 not_inf_le_fin
    | true => exact absurd e1 (not_le.2 ninf_lt_fin)
  | fin v =>
    rw [hx, fin_le_fin] at e1
    exact ⟨v, rfl, by simpa using e1⟩

theorem capRatio_beyond {d : F64} {r : ℚ} (hr : 0 ≤ r) (hd : d ≠ .nan) (h1 : 1 ≤ d)
    (hbeyond : F64.fin r ≤ d) : capRatio (atLeast d / F64.fin r) = 1 := by
  rw [capRatio_eq (ratio_ne_nan hd)]
  refine min_eq_left ?_
  have ha : atLeast d = d := by
    unfold atLeast
    rw [if_neg (fun hc => absurd ((flt_one_iff hd).1 hc) (not_lt.2 h1))]
  rw [ha]
  cases d with
  | nan => exact absurd rfl hd
  | inf s =>
    cases s with
    | true => rw [one_def] at h1; exact absurd h1 (not_le.2 ninf_lt_fin)
    | false =>
      show _ ≤ F64.inf (false != decide (r < 0))
      rw [decide_eq_false (not_lt.2 hr), one_def]
      exact fin_le_inf
  | fin a =>
    rw [one_def, fin_le_fin] at h1
    rw [fin_le_fin] at hbeyond
    rcases hr.eq_or_lt with h0 | h0
    · show _ ≤ (if r = 0 then (if a = 0 then F64.nan
            else F64.inf (decide (a < 0))) else F64.ofRat (a / r))
      rw [if_pos h0.symm, if_neg (by linarith), decide_eq_false (by linarith), one_def]
      exact fin_le_inf
    · rw [div_fin h0.ne']
      have h3 : (1 : ℚ) ≤ a / r := by rw [le_div_iff₀ h0]; linarith
      have e1 := ofRat_mono h3
      rw [show (1 : ℚ) = 2 ^ (0 : ℤ) by norm_num, ofRat_two_zpow (by norm_num) (by norm_num)] at e1
      simpa [one_def] using e1

/-- **C25** (beyond the radius). From one tile on, every distance of at least the proximity
radius gives the same score-distance. -/
theorem C25_constant_beyond_radius {zoom score : ℕ} {d d' radius : F64} {r : ℚ}
    (hR : proximityRadius (max zoom 6) radius = .fin r) (hr : 0 ≤ r)
    (hd : d ≠ .nan) (hd' : d' ≠ .nan) (h1 : 1 ≤ d) (h1' : 1 ≤ d')
    (hb : F64.fin r ≤ d) (hb' : F64.fin r ≤ d') :
    scoredist zoom d score radius = scoredist zoom d' score radius := by
  rw [scoredist_cap, scoredist_cap, hR, capRatio_beyond hr hd h1 hb, capRatio_beyond hr hd' h1' hb']

/-- The hypotheses of the C25 theorems hold for every zoom up to 16 and every positive radius of
at most `2^999` miles. -/
theorem C25_radius_ok {zoom : ℕ} {m : ℚ} (hz : zoom ≤ 16) (hm : 0 ≤ m) (hm2 : m ≤ 2 ^ (999 : ℤ)) :
    ∃ r : ℚ, proximityRadius (max zoom 6) (.fin m) = .fin r ∧ 0 ≤ r ∧ r ≤ 2 ^ (1000 : ℤ) := by
  have key : ∀ z : Fin 17, (match tilesPerMile z with
    | .fin q => decide (0 < q ∧ q ≤ 2)
    | _ => false) = true := by decide +kernel
  have hk := key ⟨max zoom 6, by omega⟩
  simp only at hk
  unfold proximityRadius
  cases ht : tilesPerMile (max zoom 6) with
  | nan => rw [ht] at hk; simp at hk
  | inf s => rw [ht] at hk; simp at hk
  | fin q =>
    rw [ht] at hk
    simp only [decide_eq_true_eq] at hk
    show ∃ r : ℚ, ofRat (m * q) = .fin r ∧ _
    have h1 : (0 : ℚ) ≤ m * q := mul_nonneg hm hk.1.le
    have h2 : m * q ≤ 2 ^ (1000 : ℤ) := by
      calc m * q ≤ 2 ^ (999 : ℤ) * 2 := mul_le_mul hm2 hk.2 hk.1.le (two_zpow_pos _).le
        _ = 2 ^ (1000 : ℤ) := by
          rw [show (1000 : ℤ) = 999 + 1 by norm_num, zpow_add_one₀ (by norm_num)]
    have e1 := ofRat_mono h1
    have e2 := ofRat_mono h2
    rw [ofRat_zero, zero_def] at e1
    rw [ofRat_two_zpow (by norm_num) (by norm_num)] at e2
    cases hx : ofRat (m * q) with
    | nan => exact absurd hx (ofRat_ne_nan _)
    | inf s =>
      rw [hx] at e1 e2
      cases s with
      | false => exact absurd e2 not_inf_le_fin
      | true => exact absurd e1 (not_le.2 ninf_lt_fin)
    | fin v =>
      rw [hx, fin_le_fin] at e1 e2
      exact ⟨v, rfl, e1, e2⟩

/-- A tile distance is 0 or at least 1. -/
theorem tileDist_zero_or_one {px py gx gy : ℕ} (h1 : px < 2 ^ 16) (h2 : py < 2 ^ 16)
    (h3 : gx < 2 ^ 16) (h4 : gy < 2 ^ 16) :
    tileDist px py gx gy = 0 ∨ 1 ≤ tileDist px py gx gy := by
  rw [tileDist_eq h1 h2 h3 h4]
  have h0 : 0 ≤ ((px : ℤ) - gx) ^ 2 + ((py : ℤ) - gy) ^ 2 := add_nonneg (sq_nonneg _) (sq_nonneg _)
  rcases h0.eq_or_lt with hz | hp
  · left; rw [← hz]; decide +kernel
  · right
    refine one_le_sqrt ?_
    exact_mod_cast hp

/-- **C25** (tiles). A tile no farther from the proximity tile, measured by the exact sum of
squares, and with at least the score, has at least the score-distance. -/
theorem C25_nearer_tile {zoom score score' px py gx gy gx' gy' : ℕ} {radius : F64} {r : ℚ}
    (hR : proximityRadius (max zoom 6) radius = .fin r) (hr : 0 ≤ r)
    (h1 : px < 2 ^ 16) (h2 : py < 2 ^ 16) (h3 : gx < 2 ^ 16) (h4 : gy < 2 ^ 16)
    (h5 : gx' < 2 ^ 16) (h6 : gy' < 2 ^ 16)
    (hnear : ((px : ℤ) - gx') ^ 2 + ((py : ℤ) - gy') ^ 2 ≤ ((px : ℤ) - gx) ^ 2 + ((py : ℤ) - gy) ^ 2)
    (hs : score ≤ score') :
    scoredist zoom (tileDist px py gx gy) score radius ≤
      scoredist zoom (tileDist px py gx' gy') score' radius := by
  refine C25_nearer_or_better hR hr ?_ ?_ hs
  · obtain ⟨q, hq, _⟩ := tileDist_fin h1 h2 h3 h4
    rw [hq]; simp
  · rw [tileDist_eq h1 h2 h3 h4, tileDist_eq h1 h2 h5 h6]
    refine sqrt_mono ?_ ?_
    · exact_mod_cast add_nonneg (sq_nonneg _) (sq_nonneg _)
    · exact_mod_cast hnear

/-- **C25** (tiles beyond the radius). All tiles at or beyond the radius have the same
score-distance. -/
theorem C25_tiles_beyond_radius {zoom score px py gx gy gx' gy' : ℕ} {radius : F64} {r : ℚ}
    (hR : proximityRadius (max zoom 6) radius = .fin r) (hr : 0 < r)
    (h1 : px < 2 ^ 16) (h2 : py < 2 ^ 16) (h3 : gx < 2 ^ 16) (h4 : gy < 2 ^ 16)
    (h5 : gx' < 2 ^ 16) (h6 : gy' < 2 ^ 16)
    (hb : F64.fin r ≤ tileDist px py gx gy) (hb' : F64.fin r ≤ tileDist px py gx' gy') :
    scoredist zoom (tileDist px py gx gy) score radius =
      scoredist zoom (tileDist px py gx' gy') score radius := by
  have one : ∀ {x y : ℕ}, x < 2 ^ 16 → y < 2 ^ 16 → F64.fin r ≤ tileDist px py x y →
      tileDist px py x y ≠ .nan ∧ 1 ≤ tileDist px py x y := by
    intro x y hx hy h
    obtain ⟨q, hq, _⟩ := tileDist_fin h1 h2 hx hy
    refine ⟨by rw [hq]; simp, ?_⟩
    rcases tileDist_zero_or_one h1 h2 hx hy with h0 | h0
    · rw [h0, zero_def, fin_le_fin] at h
      linarith
    · exact h0
  exact C25_constant_beyond_radius hR hr.le (one h3 h4 hb).1 (one h5 h6 hb').1 (one h3 h4 hb).2
    (one h5 h6 hb').2 hb hb'

/-- Without the tile condition the claim beyond the radius fails: distances below one tile count
as 0.8 tiles, so with a radius of 0.9 tiles, 0.95 and 2 tiles differ. -/
theorem C25_fractional_distance_differs : ∃ (radius d d' : F64) (r : ℚ),
    proximityRadius 6 radius = .fin r ∧ 0 < r ∧ F64.fin r ≤ d ∧ F64.fin r ≤ d' ∧
      scoredist 6 d 7 radius ≠ scoredist 6 d' 7 radius := by
  refine ⟨lit 28.83, lit 0.95, lit 2, ((match proximityRadius 6 (lit 28.83) with
    | .fin r => r
    | _ => 0) : ℚ), ?_⟩
  decide +kernel

/-- The number of tiles to the mile is four fifths at zoom 14 and grows by half with every zoom, to
within one part in 2^50, at every zoom up to 47. Up to there the powers of 3/2 are exact, so the
order in which `powi` multiplies does not matter (`C25_powers_exact`). -/
theorem C25_tiles_per_mile {zoom : ℕ} (hz : zoom ≤ 47) : ∃ q : ℚ, tilesPerMile zoom = .fin q ∧
    |q - 4 / 5 * (3 / 2) ^ zoom / (3 / 2) ^ 14| ≤
      2 ^ (-50 : ℤ) * (4 / 5 * (3 / 2) ^ zoom / (3 / 2) ^ 14) := by
  have key : ∀ z : Fin 48, (match tilesPerMile z with
      | .fin q => decide (|q - 4 / 5 * (3 / 2) ^ z.1 / (3 / 2) ^ 14| ≤
          2 ^ (-50 : ℤ) * (4 / 5 * (3 / 2) ^ z.1 / (3 / 2) ^ 14))
      | _ => false) = true := by decide +kernel
  have h := key ⟨zoom, by omega⟩
  simp only at h
  cases ht : tilesPerMile zoom with
  | nan => rw [ht] at h; cases h
  | inf b => rw [ht] at h; cases h
  | fin q => rw [ht] at h; exact ⟨q, rfl, of_decide_eq_true h⟩

/-- Powers of 3/2 up to the 33rd multiply without rounding, in whatever order. -/
theorem C25_powers_exact {m n : ℕ} (h : m + n ≤ 33) :
    (.fin ((3 / 2) ^ m) : F64) * .fin ((3 / 2) ^ n) = .fin ((3 / 2) ^ (m + n)) := by
  have key : ∀ m : Fin 34, ∀ n : Fin 34, m.1 + n.1 ≤ 33 →
      (.fin ((3 / 2) ^ m.1) : F64) * .fin ((3 / 2) ^ n.1) = .fin ((3 / 2) ^ (m.1 + n.1)) := by
    decide +kernel
  exact key ⟨m, by omega⟩ ⟨n, by omega⟩ h

/-- A radius whose size in tiles is a number can still give an infinite score-distance. -/
theorem C25_huge_radius_infinite : ∃ (m r : ℚ),
    proximityRadius 14 (.fin m) = .fin r ∧ 0 < r ∧ scoredist 14 0 7 (.fin m) = .inf false :=
  ⟨(2 ^ 53 - 1) * 2 ^ 971, ((match proximityRadius 14 (.fin ((2 ^ 53 - 1) * 2 ^ 971)) with
    | .fin r => r
    | _ => 0) : ℚ), by decide +kernel⟩

/-! ## Non-vacuity and agreement with the repository's unit tests -/

example : ∃ r : ℚ, proximityRadius (max 14 6) (lit 400) = .fin r ∧ 0 ≤ r ∧ r ≤ 2 ^ (1000 : ℤ) :=
  ⟨((match proximityRadius 14 (lit 400) with
    | .fin r => r
    | _ => 0) : ℚ), by decide +kernel⟩

/-- The score-distance of spatial.rs's unit test (14, 1, 0, 400). -/
example : scoredist 14 1 0 (lit 400) = lit 321.7508133738646 := by decide +kernel

example : proximityRadius 16 (lit 400) = lit 720.0000000000001 := by decide +kernel

example : proximityRadius 6 (lit 40) = lit 1.2485901539399482 := by decide +kernel

example : tileDist 1 1 0 0 = lit 1.4142135623730951 := by decide +kernel

example : scoredist 14 (lit 3) 2 (lit 400) < scoredist 14 (lit 2) 2 (lit 400) := by decide +kernel
example : scoredist 14 (lit 3) 2 (lit 400) < scoredist 14 (lit 3) 3 (lit 400) := by decide +kernel

end Carmen

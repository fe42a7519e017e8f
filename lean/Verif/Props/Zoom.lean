import Mathlib.Tactic.Linarith
import Mathlib.Tactic.Ring
import Verif.Model.Spatial
import Mathlib.Data.Rat.Floor

/-!
# C26: zoom adjustment keeps geography

The specification is the tile pyramid: tile `t` of zoom `z` is split into four at zoom `z + 1`,
so the ancestor of `(x, y)` `n` levels up is `(x / 2^n, y / 2^n)`. -/

namespace Carmen

/-! ## Specification -/

/-- `(x, y)` is a tile of zoom `z`. -/
def TileAt (z : ℕ) (t : ℕ × ℕ) : Prop := t.1 < 2 ^ z ∧ t.2 < 2 ^ z

/-- The ancestor `n` levels up. -/
def ancestorTile (n : ℕ) (t : ℕ × ℕ) : ℕ × ℕ := (t.1 / 2 ^ n, t.2 / 2 ^ n)

/-- The tile lies in the box, bounds included. -/
def TileInBox (b : BBox) (t : ℕ × ℕ) : Prop :=
  b.minX ≤ t.1 ∧ t.1 ≤ b.maxX ∧ b.minY ≤ t.2 ∧ t.2 ≤ b.maxY

/-- All four bounds are tile coordinates of the zoom. -/
def BoxAt (z : ℕ) (b : BBox) : Prop :=
  b.minX < 2 ^ z ∧ b.minY < 2 ^ z ∧ b.maxX < 2 ^ z ∧ b.maxY < 2 ^ z

/-- Options whose point and box consist of tiles of their own zoom. -/
def OptsAt (o : MatchOpts) : Prop :=
  (∀ p, o.proximity = some p → TileAt o.zoom p) ∧ (∀ b, o.bbox = some b → BoxAt o.zoom b)

/-! ## Arithmetic -/

theorem oneShl16_eq {n : ℕ} (h : n < 16) : oneShl16 n = 2 ^ n := by
  unfold oneShl16; rw [Nat.mod_eq_of_lt h, Nat.one_shiftLeft]

theorem shr16_eq {a n : ℕ} (h : n < 16) : shr16 a n = a / 2 ^ n := by
  unfold shr16; rw [Nat.mod_eq_of_lt h, Nat.shiftRight_eq_div_pow]

theorem scaled_lt {x z n d : ℕ} (hx : x < 2 ^ z) (hz : z + n ≤ 16) (hd : d < 2 ^ n) :
    x * 2 ^ n + d < 2 ^ (z + n) ∧ x * 2 ^ n + d < 2 ^ 16 := by
  have h1 : (x + 1) * 2 ^ n ≤ 2 ^ z * 2 ^ n := Nat.mul_le_mul_right _ hx
  rw [← pow_add] at h1
  have h2 : (2 : ℕ) ^ (z + n) ≤ 2 ^ 16 := Nat.pow_le_pow_right (by norm_num) hz
  rw [Nat.add_mul, one_mul] at h1
  constructor <;> omega

theorem mul16_pow {x z n : ℕ} (hx : x < 2 ^ z) (hz : z + n ≤ 16) :
    mul16 x (2 ^ n) = x * 2 ^ n := by
  have := (scaled_lt (d := 0) hx hz (Nat.two_pow_pos n)).2
  exact Nat.mod_eq_of_lt (by omega)

theorem add16_pow {x z n d : ℕ} (hx : x < 2 ^ z) (hz : z + n ≤ 16) (hd : d < 2 ^ n) :
    add16 (x * 2 ^ n) d = x * 2 ^ n + d :=
  Nat.mod_eq_of_lt (scaled_lt hx hz hd).2

theorem sub16_one {m : ℕ} (h1 : 1 ≤ m) (h2 : m < 2 ^ 16) : sub16 m 1 = m - 1 := by
  unfold sub16
  omega

theorem half_pos {n : ℕ} (h : 0 < n) : 1 ≤ 2 ^ n / 2 := by
  obtain ⟨k, rfl⟩ : ∃ k, n = k + 1 := ⟨n - 1, by omega⟩
  rw [pow_succ, Nat.mul_div_cancel _ (by norm_num)]
  exact Nat.one_le_two_pow

theorem pow_lt_16 {n : ℕ} (h : n < 16) : 2 ^ n < 2 ^ 16 := Nat.pow_lt_pow_right (by norm_num) h

/-- Zooming in: the adjusted point. -/
theorem adjustProximity_in {p : ℕ × ℕ} {z n : ℕ} (hp : TileAt z p) (hn : 0 < n) (hn16 : n < 16)
    (hz : z + n ≤ 16) : adjustProximity p z (z + n) =
      (p.1 * 2 ^ n + (2 ^ n / 2 - 1), p.2 * 2 ^ n + (2 ^ n / 2 - 1)) := by
  unfold adjustProximity
  rw [if_neg (by omega), show z + n - z = n by omega]
  simp only
  have h1 := half_pos hn
  have h2 := pow_lt_16 hn16
  rw [oneShl16_eq hn16, sub16_one h1 (by omega), mul16_pow hp.1 hz, mul16_pow hp.2 hz,
    add16_pow hp.1 hz (by omega), add16_pow hp.2 hz (by omega)]

theorem adjustProximity_out {p : ℕ × ℕ} {z n : ℕ} (hn : 0 < n) (hn16 : n < 16) :
    adjustProximity p (z + n) z = ancestorTile n p := by
  unfold adjustProximity ancestorTile
  rw [if_pos (by omega), show z + n - z = n by omega]
  simp only
  rw [shr16_eq hn16, shr16_eq hn16]

theorem adjustBBox_in {b : BBox} {z n : ℕ} (hb : BoxAt z b) (hn16 : n < 16)
    (hz : z + n ≤ 16) : adjustBBoxZoom b z (z + n) =
      ⟨b.minX * 2 ^ n, b.minY * 2 ^ n, b.maxX * 2 ^ n + (2 ^ n - 1),
        b.maxY * 2 ^ n + (2 ^ n - 1)⟩ := by
  unfold adjustBBoxZoom
  rw [if_neg (by omega), show z + n - z = n by omega]
  simp only
  have h1 := Nat.one_le_two_pow (n := n)
  have h2 := pow_lt_16 hn16
  obtain ⟨b1, b2, b3, b4⟩ := hb
  rw [oneShl16_eq hn16, sub16_one h1 h2, mul16_pow b1 hz, mul16_pow b2 hz,
    mul16_pow b3 hz, mul16_pow b4 hz, add16_pow b3 hz (by omega), add16_pow b4 hz (by omega)]

theorem adjustBBox_out {b : BBox} {z n : ℕ} (hn : 0 < n) (hn16 : n < 16) :
    adjustBBoxZoom b (z + n) z =
      ⟨b.minX / 2 ^ n, b.minY / 2 ^ n, b.maxX / 2 ^ n, b.maxY / 2 ^ n⟩ := by
  unfold adjustBBoxZoom
  rw [if_pos (by omega), show z + n - z = n by omega]
  simp only
  rw [shr16_eq hn16, shr16_eq hn16, shr16_eq hn16, shr16_eq hn16]

theorem scaled_div {x n d : ℕ} (hd : d < 2 ^ n) : (x * 2 ^ n + d) / 2 ^ n = x := by
  rw [mul_comm, Nat.mul_add_div (Nat.two_pow_pos n), Nat.div_eq_of_lt hd, add_zero]

theorem half_lt {n : ℕ} : 2 ^ n / 2 - 1 < 2 ^ n := by
  have := Nat.one_le_two_pow (n := n)
  omega

/-! ## Theorems -/

/-- **C26** (point, zooming out): the adjusted tile is the ancestor. -/
theorem C26_point_out {o : MatchOpts} {z n : ℕ} {p : ℕ × ℕ} (ho : o.zoom = z + n) (hn : 0 < n)
    (hn16 : n < 16) (hp : o.proximity = some p) :
    (o.adjustToZoom z).proximity = some (ancestorTile n p) := by
  unfold MatchOpts.adjustToZoom
  rw [if_neg (by omega), hp, ho]
  simp only [Option.map_some]
  rw [adjustProximity_out hn hn16]

/-- **C26** (point, zooming in): the adjusted tile is a tile of the new zoom and a descendant. -/
theorem C26_point_in {o : MatchOpts} {n : ℕ} {p : ℕ × ℕ} (hn16 : n < 16)
    (hz : o.zoom + n ≤ 16) (hp : o.proximity = some p) (hv : TileAt o.zoom p) :
    ∃ q, (o.adjustToZoom (o.zoom + n)).proximity = some q ∧ ancestorTile n q = p ∧
      TileAt (o.zoom + n) q := by
  unfold MatchOpts.adjustToZoom
  by_cases hn : n = 0
  · subst hn
    rw [if_pos (Nat.add_zero _).symm]
    exact ⟨p, hp, by simp [ancestorTile], hv⟩
  · rw [if_neg (by omega), hp]
    simp only [Option.map_some]
    rw [adjustProximity_in hv (by omega) hn16 hz]
    refine ⟨_, rfl, ?_, ?_⟩
    · unfold ancestorTile
      rw [scaled_div half_lt, scaled_div half_lt]
    · exact ⟨(scaled_lt hv.1 hz half_lt).1, (scaled_lt hv.2 hz half_lt).1⟩

/-- **C26** (box, zooming in): the adjusted box holds exactly the descendants of the tiles of
the box. -/
theorem C26_box_in {o : MatchOpts} {n : ℕ} {b : BBox} (hn16 : n < 16)
    (hz : o.zoom + n ≤ 16) (hb : o.bbox = some b) (hv : BoxAt o.zoom b) :
    ∃ b', (o.adjustToZoom (o.zoom + n)).bbox = some b' ∧ BoxAt (o.zoom + n) b' ∧
      ∀ t, TileInBox b' t ↔ TileInBox b (ancestorTile n t) := by
  unfold MatchOpts.adjustToZoom
  by_cases hn : n = 0
  · subst hn
    rw [if_pos (Nat.add_zero _).symm]
    exact ⟨b, hb, hv, fun t => by simp [ancestorTile]⟩
  · rw [if_neg (by omega), hb]
    simp only [Option.map_some]
    rw [adjustBBox_in hv hn16 hz]
    have hpos := Nat.two_pow_pos n
    refine ⟨_, rfl, ?_, ?_⟩
    · have h0 := fun {x : ℕ} (h : x < 2 ^ o.zoom) => (scaled_lt (d := 0) h hz hpos).1
      have h1 := fun {x : ℕ} (h : x < 2 ^ o.zoom) =>
        (scaled_lt (d := 2 ^ n - 1) h hz (by omega)).1
      obtain ⟨b1, b2, b3, b4⟩ := hv
      exact ⟨h0 b1, h0 b2, h1 b3, h1 b4⟩
    · intro t
      have e1 : ∀ a x : ℕ, a * 2 ^ n ≤ x ↔ a ≤ x / 2 ^ n :=
        fun a x => (Nat.le_div_iff_mul_le hpos).symm
      have e2 : ∀ a x : ℕ, x ≤ a * 2 ^ n + (2 ^ n - 1) ↔ x / 2 ^ n ≤ a := by
        intro a x
        rw [← Nat.lt_succ_iff (m := x / 2 ^ n), Nat.div_lt_iff_lt_mul hpos, Nat.succ_mul]
        omega
      unfold TileInBox ancestorTile
      simp only
      rw [e1, e1, e2, e2]

/-- **C26** (box, zooming out): the adjusted box holds exactly the ancestors of the tiles of the
box (when the box is not inverted); in particular it contains every ancestor. -/
theorem C26_box_out {o : MatchOpts} {z n : ℕ} {b : BBox} (ho : o.zoom = z + n) (hn : 0 < n)
    (hn16 : n < 16) (hb : o.bbox = some b) :
    ∃ b', (o.adjustToZoom z).bbox = some b' ∧ (BoxAt o.zoom b → BoxAt z b') ∧
      (∀ t, TileInBox b t → TileInBox b' (ancestorTile n t)) ∧
      (b.minX ≤ b.maxX → b.minY ≤ b.maxY →
        ∀ t', TileInBox b' t' → ∃ t, TileInBox b t ∧ ancestorTile n t = t') := by
  unfold MatchOpts.adjustToZoom
  rw [if_neg (by omega), hb, ho]
  simp only [Option.map_some]
  rw [adjustBBox_out hn hn16]
  have hpos := Nat.two_pow_pos n
  refine ⟨_, rfl, ?_, ?_, ?_⟩
  · rintro ⟨b1, b2, b3, b4⟩
    have h : ∀ {x : ℕ}, x < 2 ^ (z + n) → x / 2 ^ n < 2 ^ z := by
      intro x hx
      rw [Nat.div_lt_iff_lt_mul hpos, ← pow_add]; exact hx
    exact ⟨h b1, h b2, h b3, h b4⟩
  · rintro t ⟨h1, h2, h3, h4⟩
    exact ⟨Nat.div_le_div_right h1, Nat.div_le_div_right h2, Nat.div_le_div_right h3,
      Nat.div_le_div_right h4⟩
  · rintro hx hy ⟨x, y⟩ ⟨h1, h2, h3, h4⟩
    have key : ∀ lo hi v : ℕ, lo ≤ hi → lo / 2 ^ n ≤ v → v ≤ hi / 2 ^ n →
        ∃ u, lo ≤ u ∧ u ≤ hi ∧ u / 2 ^ n = v := by
      intro lo hi v hlh hlo hhi
      by_cases c : v * 2 ^ n ≤ lo
      · refine ⟨lo, le_rfl, hlh, le_antisymm hlo ((Nat.le_div_iff_mul_le hpos).2 c)⟩
      · refine ⟨v * 2 ^ n, by omega, (Nat.le_div_iff_mul_le hpos).1 hhi,
          Nat.mul_div_cancel _ hpos⟩
    obtain ⟨u, u1, u2, u3⟩ := key _ _ _ hx h1 h2
    obtain ⟨v, v1, v2, v3⟩ := key _ _ _ hy h3 h4
    exact ⟨(u, v), ⟨u1, u2, v1, v2⟩, by simp [ancestorTile, u3, v3]⟩

/-- **C26** (round trip): zooming in and back out restores the options. -/
theorem C26_round_trip {o : MatchOpts} {n : ℕ} (hn16 : n < 16) (hz : o.zoom + n ≤ 16)
    (hv : OptsAt o) : (o.adjustToZoom (o.zoom + n)).adjustToZoom o.zoom = o := by
  by_cases hn : n = 0
  · subst hn
    unfold MatchOpts.adjustToZoom
    rw [if_pos (Nat.add_zero _).symm, if_pos rfl]
  · obtain ⟨b, p, z⟩ := o
    obtain ⟨hp, hb⟩ := hv
    simp only at hz hp hb
    unfold MatchOpts.adjustToZoom
    simp only
    rw [if_neg (show ¬ z = z + n by omega)]
    simp only
    rw [if_neg (show ¬ z + n = z by omega)]
    have e1 : (p.map fun p => adjustProximity p z (z + n)).map
        (fun p => adjustProximity p (z + n) z) = p := by
      cases p with
      | none => rfl
      | some p =>
        simp only [Option.map_some]
        rw [adjustProximity_out (by omega) hn16,
          adjustProximity_in (hp p rfl) (by omega) hn16 hz]
        unfold ancestorTile
        rw [scaled_div half_lt, scaled_div half_lt]
    have e2 : (b.map fun b => adjustBBoxZoom b z (z + n)).map
        (fun b => adjustBBoxZoom b (z + n) z) = b := by
      cases b with
      | none => rfl
      | some b =>
        simp only [Option.map_some]
        have h0 : ∀ x : ℕ, x * 2 ^ n / 2 ^ n = x :=
          fun x => Nat.mul_div_cancel _ (Nat.two_pow_pos n)
        have h1 : 2 ^ n - 1 < 2 ^ n := by have := Nat.two_pow_pos n; omega
        rw [adjustBBox_out (by omega) hn16, adjustBBox_in (hb b rfl) hn16 hz]
        simp only
        rw [h0, h0, scaled_div h1, scaled_div h1]
    rw [e1, e2]

theorem chk16_some {n : ℕ} (h : n < 2 ^ 16) : chk16 n = some n := if_pos h
theorem chkSub_some {a b : ℕ} (h : b ≤ a) : chkSub a b = some (a - b) := if_pos h
theorem chkShift_some {n : ℕ} (h : n < 16) : chkShift n = some n := if_pos h

theorem adjustProximityChecked_eq {p : ℕ × ℕ} {z t : ℕ} (hp : TileAt z p) (hne : z ≠ t)
    (hz : z ≤ 16) (ht : t ≤ 16) (h1 : z < t + 16) (h2 : t < z + 16) :
    adjustProximityChecked p z t = some (adjustProximity p z t) := by
  by_cases h : t < z
  · obtain ⟨n, rfl⟩ : ∃ n, z = t + n := ⟨z - t, by omega⟩
    rw [adjustProximity_out (by omega) (by omega)]
    unfold adjustProximityChecked ancestorTile
    rw [if_pos h, show t + n - t = n by omega, chkShift_some (by omega)]
    simp [Nat.shiftRight_eq_div_pow]
  · obtain ⟨n, rfl⟩ : ∃ n, t = z + n := ⟨t - z, by omega⟩
    rw [adjustProximity_in hp (by omega) (by omega) ht]
    unfold adjustProximityChecked
    have hh := half_pos (n := n) (by omega)
    have m1 := scaled_lt (d := 0) hp.1 ht (Nat.two_pow_pos n)
    have m2 := scaled_lt (d := 0) hp.2 ht (Nat.two_pow_pos n)
    have m3 := scaled_lt hp.1 ht (half_lt (n := n))
    have m4 := scaled_lt hp.2 ht (half_lt (n := n))
    rw [if_neg h, show z + n - z = n by omega, chkShift_some (by omega)]
    simp only [Option.bind_eq_bind, Option.bind_some, Nat.one_shiftLeft]
    rw [chkSub_some hh, chk16_some (by omega)]
    simp only [Option.bind_some]
    rw [chk16_some m3.2, chk16_some (by omega)]
    simp only [Option.bind_some]
    rw [chk16_some m4.2]
    rfl

theorem adjustBBoxZoomChecked_eq {b : BBox} {z t : ℕ} (hb : BoxAt z b) (hne : z ≠ t)
    (hz : z ≤ 16) (ht : t ≤ 16) (h1 : z < t + 16) (h2 : t < z + 16) :
    adjustBBoxZoomChecked b z t = some (adjustBBoxZoom b z t) := by
  by_cases h : t < z
  · obtain ⟨n, rfl⟩ : ∃ n, z = t + n := ⟨z - t, by omega⟩
    rw [adjustBBox_out (by omega) (by omega)]
    unfold adjustBBoxZoomChecked
    rw [if_pos h, show t + n - t = n by omega, chkShift_some (by omega)]
    simp [Nat.shiftRight_eq_div_pow]
  · obtain ⟨n, rfl⟩ : ∃ n, t = z + n := ⟨t - z, by omega⟩
    rw [adjustBBox_in hb (by omega) ht]
    unfold adjustBBoxZoomChecked
    obtain ⟨b1, b2, b3, b4⟩ := hb
    have hpos := Nat.two_pow_pos n
    have m1 := (scaled_lt (d := 0) b1 ht hpos).2
    have m2 := (scaled_lt (d := 0) b2 ht hpos).2
    have m3 := (scaled_lt (d := 0) b3 ht hpos).2
    have m4 := (scaled_lt (d := 0) b4 ht hpos).2
    have m5 := (scaled_lt (d := 2 ^ n - 1) b3 ht (by omega)).2
    have m6 := (scaled_lt (d := 2 ^ n - 1) b4 ht (by omega)).2
    rw [if_neg h, show z + n - z = n by omega, chkShift_some (by omega)]
    simp only [Option.bind_eq_bind, Option.bind_some, Nat.one_shiftLeft]
    rw [chk16_some (by omega), chk16_some (by omega)]
    simp only [Option.bind_some]
    rw [chkSub_some hpos, chk16_some (by omega)]
    simp only [Option.bind_some]
    rw [chk16_some m5, chk16_some (by omega)]
    simp only [Option.bind_some]
    rw [chk16_some m6]
    rfl

/-- **C26** (no overflow): for valid options at zooms 0 to 16 that differ by less than 16 no
operation overflows, so a build with overflow checks returns the same options. -/
theorem C26_no_overflow {o : MatchOpts} {t : ℕ} (hv : OptsAt o) (hz : o.zoom ≤ 16) (ht : t ≤ 16)
    (h1 : o.zoom < t + 16) (h2 : t < o.zoom + 16) :
    o.adjustToZoomChecked t = some (o.adjustToZoom t) := by
  obtain ⟨b, p, z⟩ := o
  obtain ⟨hp, hb⟩ := hv
  simp only at hz hp hb h1 h2
  unfold MatchOpts.adjustToZoomChecked MatchOpts.adjustToZoom
  simp only
  by_cases hne : z = t
  · rw [if_pos hne, if_pos hne]
  · rw [if_neg hne, if_neg hne]
    cases p with
    | none =>
      cases b with
      | none => rfl
      | some b =>
        simp only [Option.map_some, Option.map_none]
        rw [adjustBBoxZoomChecked_eq (hb b rfl) hne hz ht h1 h2]
        rfl
    | some p =>
      simp only [Option.map_some]
      rw [adjustProximityChecked_eq (hp p rfl) hne hz ht h1 h2]
      cases b with
      | none => rfl
      | some b =>
        simp only [Option.map_some]
        rw [adjustBBoxZoomChecked_eq (hb b rfl) hne hz ht h1 h2]
        rfl

/-- The zooms 0 and 16 differ by 16: a build with overflow checks panics, one without returns a
point that is not where it should be. -/
theorem C26_sixteen_levels :
    (⟨none, some (0, 0), 0⟩ : MatchOpts).adjustToZoomChecked 16 = none ∧
    ((⟨none, some (40000, 7), 16⟩ : MatchOpts).adjustToZoom 0).proximity ≠
      some (ancestorTile 16 (40000, 7)) := by
  decide +kernel

/-- **C26** (whole world): the box of a zoom up to 16 is one box that holds exactly the tiles of
that zoom. -/
theorem C26_global_box {z : ℕ} (hz : z ≤ 16) :
    ∃ b, globalBBoxForZoom z = [b] ∧ ∀ t, TileInBox b t ↔ TileAt z t := by
  refine ⟨_, rfl, fun t => ?_⟩
  have h1 : (2 : ℕ) ^ z ≤ 2 ^ 16 := Nat.pow_le_pow_right (by norm_num) hz
  have h0 : 1 ≤ (2 : ℕ) ^ z := Nat.one_le_two_pow
  have e : ((1 <<< (z % 32)) % 2 ^ 32 - 1) % 2 ^ 16 = 2 ^ z - 1 := by
    rw [Nat.mod_eq_of_lt (by omega : z < 32), Nat.one_shiftLeft,
      Nat.mod_eq_of_lt (by omega), Nat.mod_eq_of_lt (by omega)]
  unfold TileInBox TileAt
  simp only [e]
  omega

/-- The boxes of zooms 0, 6 and 16; from zoom 17 on the 16 bits of a coordinate do not suffice, and
the box is that of zoom 16. -/
example : [0, 6, 16, 17].map globalBBoxForZoom =
    [[⟨0, 0, 0, 0⟩], [⟨0, 0, 63, 63⟩], [⟨0, 0, 65535, 65535⟩], [⟨0, 0, 65535, 65535⟩]] := by
  decide +kernel

/-! ## Non-vacuity -/

example : OptsAt ⟨some ⟨1, 2, 3, 3⟩, some (2, 3), 2⟩ := by
  refine ⟨?_, ?_⟩
  · rintro p ⟨⟩; exact ⟨by decide, by decide⟩
  · rintro b ⟨⟩; exact ⟨by decide, by decide, by decide, by decide⟩

example : (⟨some ⟨1, 2, 3, 3⟩, some (2, 3), 2⟩ : MatchOpts).adjustToZoom 4 =
    ⟨some ⟨4, 8, 15, 15⟩, some (9, 13), 4⟩ := by decide

example : (⟨some ⟨4, 8, 15, 15⟩, some (9, 13), 4⟩ : MatchOpts).adjustToZoom 3 =
    ⟨some ⟨2, 4, 7, 7⟩, some (4, 6), 3⟩ := by decide

/-! # C27: nearby-only restricts to a square round the point -/

/-- Specification: 25 miles in tiles, rounded up, with 24901 miles round the earth. -/
def nearbyTiles (zoom : ℕ) : ℕ := ⌈(25 * 2 ^ zoom : ℚ) / 24901⌉₊

/-- Specification: the tile is within `k` tiles on both axes. -/
def WithinTiles (k : ℕ) (p t : ℕ × ℕ) : Prop :=
  t.1 ≤ p.1 + k ∧ p.1 ≤ t.1 + k ∧ t.2 ≤ p.2 + k ∧ p.2 ≤ t.2 + k

/-- The padding computed in floating point is the exact one (all zooms 0 to 16, a finite case
check of the whole range). -/
theorem nearbyPadding_exact {zoom : ℕ} (h : zoom ≤ 16) : nearbyPadding zoom = nearbyTiles zoom := by
  have key : ∀ z : Fin 17, nearbyPadding z = ⌈(25 * 2 ^ (z : ℕ) : ℚ) / 24901⌉₊ := by
    decide +kernel
  exact key ⟨zoom, by omega⟩

/-- **C27** as far as it holds: away from the upper edge of the 16-bit range the new box holds
exactly the tiles within the padding of the point that were in the old box. Missing: points within
the padding of the edge, where the claim is false (`C27_edge_loses_point`). -/
theorem C27_nearby_square_partial {o : MatchOpts} {p : ℕ × ℕ} (hz : o.zoom ≤ 16)
    (hp : o.proximity = some p) (hx : p.1 + nearbyTiles o.zoom < 2 ^ 16)
    (hy : p.2 + nearbyTiles o.zoom < 2 ^ 16) :
    ∃ b', o.withNearbyOnly = { o with bbox := some b' } ∧
      o.withNearbyOnlyChecked = some o.withNearbyOnly ∧
      ∀ t, TileInBox b' t ↔
        WithinTiles (nearbyTiles o.zoom) p t ∧ (∀ b, o.bbox = some b → TileInBox b t) := by
  obtain ⟨ob, prox, z⟩ := o
  simp only at hp hz hx hy
  subst hp
  unfold MatchOpts.withNearbyOnly MatchOpts.withNearbyOnlyChecked nearbyPaddingChecked
  simp only
  rw [if_pos (show z < 32 by omega), nearbyPadding_exact hz]
  simp only [Option.bind_eq_bind, Option.bind_some]
  generalize nearbyTiles z = k at *
  rw [chk16_some hx, chk16_some hy]
  have e1 : add16 p.1 k = p.1 + k := Nat.mod_eq_of_lt hx
  have e2 : add16 p.2 k = p.2 + k := Nat.mod_eq_of_lt hy
  rw [e1, e2]
  have m : ∀ a : ℕ, (if a < k then 0 else a - k) = a - k := by intro a; split <;> omega
  rw [m, m]
  cases ob with
  | none =>
    refine ⟨_, rfl, rfl, fun t => ?_⟩
    unfold TileInBox WithinTiles
    simp only
    constructor
    · rintro ⟨h1, h2, h3, h4⟩
      exact ⟨⟨by omega, by omega, by omega, by omega⟩, fun b hb => by cases hb⟩
    · rintro ⟨⟨h1, h2, h3, h4⟩, _⟩
      exact ⟨by omega, by omega, by omega, by omega⟩
  | some b =>
    refine ⟨_, rfl, rfl, fun t => ?_⟩
    unfold TileInBox WithinTiles
    simp only
    constructor
    · rintro ⟨h1, h2, h3, h4⟩
      refine ⟨⟨by omega, by omega, by omega, by omega⟩, ?_⟩
      rintro b' ⟨⟩
      exact ⟨by omega, by omega, by omega, by omega⟩
    · rintro ⟨⟨h1, h2, h3, h4⟩, h5⟩
      obtain ⟨c1, c2, c3, c4⟩ := h5 b rfl
      exact ⟨by omega, by omega, by omega, by omega⟩

/-- **C27** (the point stays): away from the edge the proximity tile is in the new box if it was
in the old one. -/
theorem C27_point_stays_partial {o : MatchOpts} {p : ℕ × ℕ} (hz : o.zoom ≤ 16)
    (hp : o.proximity = some p) (hx : p.1 + nearbyTiles o.zoom < 2 ^ 16)
    (hy : p.2 + nearbyTiles o.zoom < 2 ^ 16) (hin : ∀ b, o.bbox = some b → TileInBox b p) :
    ∃ b', o.withNearbyOnly.bbox = some b' ∧ TileInBox b' p := by
  obtain ⟨b', h1, _, h2⟩ := C27_nearby_square_partial hz hp hx hy
  refine ⟨b', by rw [h1], (h2 p).2 ⟨⟨by omega, by omega, by omega, by omega⟩, hin⟩⟩

/-- Every valid point at zooms 0 to 15 is far enough from the edge. -/
theorem C27_up_to_zoom_15 {o : MatchOpts} {p : ℕ × ℕ} (hz : o.zoom ≤ 15) (hv : TileAt o.zoom p) :
    p.1 + nearbyTiles o.zoom < 2 ^ 16 ∧ p.2 + nearbyTiles o.zoom < 2 ^ 16 := by
  have key : ∀ z : Fin 16, nearbyPadding z ≤ 2 ^ 15 := by decide +kernel
  have h := key ⟨o.zoom, by omega⟩
  simp only at h
  rw [nearbyPadding_exact (by omega)] at h
  have h2 : (2 : ℕ) ^ o.zoom ≤ 2 ^ 15 := Nat.pow_le_pow_right (by norm_num) hz
  obtain ⟨h3, h4⟩ := hv
  constructor <;> omega

/-- Without a proximity point nothing changes. -/
theorem C27_no_point {o : MatchOpts} (h : o.proximity = none) : o.withNearbyOnly = o := by
  unfold MatchOpts.withNearbyOnly; rw [h]

theorem nearbyTiles_le {zoom : ℕ} (h : zoom ≤ 16) : nearbyTiles zoom ≤ 66 := by
  have key : ∀ z : Fin 17, nearbyPadding z ≤ 66 := by decide +kernel
  rw [← nearbyPadding_exact h]
  exact key ⟨zoom, by omega⟩

/-- **C27** within the padding of the edge, which is the case the theorem above leaves out: the new
box holds no tile at all, and a build with overflow checks panics. -/
theorem C27_edge_empty_partial {o : MatchOpts} {p : ℕ × ℕ} (hz : o.zoom ≤ 16)
    (hp : o.proximity = some p) (hp1 : p.1 < 2 ^ 16) (hp2 : p.2 < 2 ^ 16)
    (hedge : 2 ^ 16 ≤ p.1 + nearbyTiles o.zoom ∨ 2 ^ 16 ≤ p.2 + nearbyTiles o.zoom) :
    (∃ b', o.withNearbyOnly = { o with bbox := some b' } ∧ ∀ t, ¬ TileInBox b' t) ∧
      o.withNearbyOnlyChecked = none := by
  obtain ⟨ob, prox, z⟩ := o
  simp only at hp hz hedge
  subst hp
  have hk := nearbyTiles_le hz
  unfold MatchOpts.withNearbyOnly MatchOpts.withNearbyOnlyChecked nearbyPaddingChecked
  simp only
  rw [if_pos (show z < 32 by omega), nearbyPadding_exact hz]
  simp only [Option.bind_eq_bind, Option.bind_some]
  generalize nearbyTiles z = k at *
  have m : ∀ a : ℕ, (if a < k then 0 else a - k) = a - k := by intro a; split <;> omega
  rw [m, m]
  constructor
  · refine ⟨_, rfl, fun t ht => ?_⟩
    unfold TileInBox at ht
    have e : ∀ a, a < 2 ^ 16 → 2 ^ 16 ≤ a + k → add16 a k < a - k := by
      intro a h1 h2
      unfold add16
      omega
    cases ob with
    | none =>
      simp only at ht
      rcases hedge with h | h
      · have := e p.1 hp1 h
        omega
      · have := e p.2 hp2 h
        omega
    | some b =>
      simp only at ht
      rcases hedge with h | h
      · have := e p.1 hp1 h
        omega
      · have := e p.2 hp2 h
        omega
  · rcases hedge with h | h
    · rw [show chk16 (p.1 + k) = none by unfold chk16; rw [if_neg (by omega)]]
      rfl
    · rw [show chk16 (p.2 + k) = none by unfold chk16; rw [if_neg (by omega)]]
      cases chk16 (p.1 + k) <;> rfl

example : (2 : ℕ) ^ 16 ≤ 65500 + nearbyTiles 16 := by
  rw [← nearbyPadding_exact (le_refl 16)]
  decide +kernel

/-- The padding at zooms where the numbers do not fit: from zoom 17 to 30 it is the exact one unless
that is beyond 16 bits, at zoom 31 the shift is negative and the padding is nothing, and from zoom 32
on a release build takes the padding of another zoom. -/
theorem C27_padding (zoom : ℕ) :
    (zoom ≤ 30 → nearbyPadding zoom = min (nearbyTiles zoom) 65535) ∧
      (zoom = 31 → nearbyPadding zoom = 0) ∧ nearbyPadding (zoom + 32) = nearbyPadding zoom := by
  refine ⟨fun h => ?_, fun h => ?_, ?_⟩
  · have key : ∀ z : Fin 31, nearbyPadding z = min ⌈(25 * 2 ^ (z : ℕ) : ℚ) / 24901⌉₊ 65535 := by
      decide +kernel
    exact key ⟨zoom, by omega⟩
  · subst h; decide +kernel
  · unfold nearbyPadding oneShlI32
    rw [Nat.add_mod_right]

/-- Beyond the zooms of C27: at zoom 31 only the tile of the point itself is left of the box, and from
zoom 32 on a build with overflow checks panics. -/
theorem C27_beyond {o : MatchOpts} {p : ℕ × ℕ} (hp : o.proximity = some p) (hx : p.1 < 2 ^ 16)
    (hy : p.2 < 2 ^ 16) :
    (o.zoom = 31 → ∃ b', o.withNearbyOnly = { o with bbox := some b' } ∧
      ∀ t, TileInBox b' t ↔ t = p ∧ ∀ b, o.bbox = some b → TileInBox b t) ∧
    (32 ≤ o.zoom → o.withNearbyOnlyChecked = none) := by
  obtain ⟨ob, prox, z⟩ := o
  simp only at hp
  subst hp
  unfold MatchOpts.withNearbyOnly MatchOpts.withNearbyOnlyChecked nearbyPaddingChecked
  simp only
  constructor
  · intro hz
    rw [(C27_padding z).2.1 hz]
    have e1 : add16 p.1 0 = p.1 := Nat.mod_eq_of_lt hx
    have e2 : add16 p.2 0 = p.2 := Nat.mod_eq_of_lt hy
    rw [e1, e2]
    refine ⟨_, rfl, fun t => ?_⟩
    cases ob with
    | none =>
      unfold TileInBox
      simp only [Nat.not_lt_zero, if_false, Nat.sub_zero, Prod.ext_iff]
      constructor
      · rintro ⟨h1, h2, h3, h4⟩
        exact ⟨⟨by omega, by omega⟩, fun b hb => by cases hb⟩
      · rintro ⟨⟨h1, h2⟩, -⟩
        omega
    | some b =>
      unfold TileInBox
      simp only [Nat.not_lt_zero, if_false, Nat.sub_zero, Prod.ext_iff]
      constructor
      · rintro ⟨h1, h2, h3, h4⟩
        refine ⟨⟨by omega, by omega⟩, fun b hb => ?_⟩
        cases hb
        omega
      · rintro ⟨⟨h1, h2⟩, h3⟩
        have := h3 b rfl
        omega
  · intro hz
    rw [if_neg (by omega)]
    rfl

example : (⟨none, some (100, 100), 31⟩ : MatchOpts).withNearbyOnly.bbox =
    some ⟨100, 100, 100, 100⟩ := by decide +kernel

/-- **C27** is false at zoom 16 near the edge: the box wraps round, the valid proximity tile is
outside it although no box was given before, and a build with overflow checks panics. -/
theorem C27_edge_loses_point : ∃ (o : MatchOpts) (p : ℕ × ℕ), o.zoom ≤ 16 ∧
    o.proximity = some p ∧ TileAt o.zoom p ∧ o.bbox = none ∧
      (∃ b', o.withNearbyOnly.bbox = some b' ∧ ¬ TileInBox b' p) ∧
      o.withNearbyOnlyChecked = none :=
  ⟨⟨none, some (65500, 100), 16⟩, (65500, 100), by decide, rfl, ⟨by decide, by decide⟩, rfl,
    ⟨_, rfl, by unfold TileInBox; decide +kernel⟩, by decide +kernel⟩

/-! ## Non-vacuity -/

example : (⟨some ⟨0, 2, 3, 30⟩, some (2, 3), 12⟩ : MatchOpts).withNearbyOnly =
    ⟨some ⟨0, 2, 3, 8⟩, some (2, 3), 12⟩ := by decide +kernel
example : nearbyPadding 16 = 66 := by decide +kernel

/-- The unit tests of common.rs:333-360. -/
example : (⟨none, some (100, 100), 14⟩ : MatchOpts).withNearbyOnly.bbox =
    some ⟨83, 83, 117, 117⟩ := by decide +kernel
example : (⟨none, some (100, 100), 6⟩ : MatchOpts).withNearbyOnly.bbox =
    some ⟨99, 99, 101, 101⟩ := by decide +kernel
example : (⟨none, some (5, 5), 14⟩ : MatchOpts).withNearbyOnly.bbox =
    some ⟨0, 0, 22, 22⟩ := by decide +kernel
example : (⟨some ⟨90, 70, 115, 180⟩, some (100, 100), 14⟩ : MatchOpts).withNearbyOnly.bbox =
    some ⟨90, 83, 115, 117⟩ := by decide +kernel

end Carmen

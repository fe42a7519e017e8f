import Verif.Spec.Shift
import Verif.Props.Relabel
import Verif.Props.Wider

/-!
# C96: searches of a map that was moved
-/

namespace Carmen
open Format Spec Builder

/-! ## Lookups -/

theorem shift_at (m : Shift) (z x y : ℕ) : (m.at z).move x y =
    (m.dx * 2 ^ (z - m.zoom) + x, m.dy * 2 ^ (z - m.zoom) + y) := rfl

theorem shift_cast {Z z : ℕ} (h : Z ≤ z) (d : ℤ) :
    ((d * 2 ^ (z - Z) : ℤ) : ℚ) = d / 2 ^ Z * 2 ^ z := by
  obtain ⟨k, rfl⟩ := Nat.exists_eq_add_of_le h
  rw [Nat.add_sub_cancel_left, pow_add]
  push_cast
  field_simp

theorem shift_coord {Z z : ℕ} (h : Z ≤ z) {d : ℤ} {x x' : ℕ}
    (hx : (x' : ℤ) = d * 2 ^ (z - Z) + x) : (x' : ℚ) = d / 2 ^ Z * 2 ^ z + x := by
  rw [← shift_cast h]
  exact_mod_cast hx

theorem shift_touches {m : Shift} {z O x y x' y' : ℕ} {b b' : BBox} (hz : m.zoom ≤ z)
    (hO : m.zoom ≤ O) (hx : (x' : ℤ) = m.dx * 2 ^ (z - m.zoom) + x)
    (hy : (y' : ℤ) = m.dy * 2 ^ (z - m.zoom) + y)
    (h1 : (b'.minX : ℤ) = m.dx * 2 ^ (O - m.zoom) + b.minX)
    (h2 : (b'.minY : ℤ) = m.dy * 2 ^ (O - m.zoom) + b.minY)
    (h3 : (b'.maxX : ℤ) = m.dx * 2 ^ (O - m.zoom) + b.maxX)
    (h4 : (b'.maxY : ℤ) = m.dy * 2 ^ (O - m.zoom) + b.maxY) :
    Touches z (x', y') O b' ↔ Touches z (x, y) O b := by
  have ex := shift_coord hz hx
  have ey := shift_coord hz hy
  have e1 := shift_coord hO h1
  have e2 := shift_coord hO h2
  have e3 := shift_coord hO h3
  have e4 := shift_coord hO h4
  unfold Touches InTile InArea
  constructor
  · rintro ⟨u, v, ⟨a1, a2, a3, a4⟩, b1, b2, b3, b4⟩
    refine ⟨u - m.dx / 2 ^ m.zoom, v - m.dy / 2 ^ m.zoom, ⟨?_, ?_, ?_, ?_⟩, ?_, ?_, ?_, ?_⟩ <;>
      simp only [sub_mul] at * <;> linarith
  · rintro ⟨u, v, ⟨a1, a2, a3, a4⟩, b1, b2, b3, b4⟩
    refine ⟨u + m.dx / 2 ^ m.zoom, v + m.dy / 2 ^ m.zoom, ⟨?_, ?_, ?_, ?_⟩, ?_, ?_, ?_, ?_⟩ <;>
      simp only [add_mul] at * <;> linarith

theorem shift_pointAt {Z z O : ℕ} (hz : Z ≤ z) (hO : Z ≤ O) {d : ℤ} {p p' : ℕ}
    (hp : (p' : ℤ) = d * 2 ^ (O - Z) + p) :
    (z ≤ O → ((p' / 2 ^ (O - z) : ℕ) : ℤ) = d * 2 ^ (z - Z) + (p / 2 ^ (O - z) : ℕ)) ∧
    (¬ z ≤ O → ((p' * 2 ^ (z - O) + 2 ^ (z - O - 1) - 1 : ℕ) : ℤ) =
      d * 2 ^ (z - Z) + (p * 2 ^ (z - O) + 2 ^ (z - O - 1) - 1 : ℕ)) := by
  constructor
  · intro h
    have e : O - Z = (z - Z) + (O - z) := by omega
    rw [e, pow_add, ← mul_assoc] at hp
    push_cast
    rw [hp, Int.add_comm, Int.add_mul_ediv_right _ _ (by positivity), Int.add_comm]
  · intro h
    have e : z - Z = (O - Z) + (z - O) := by omega
    have h1 : 1 ≤ 2 ^ (z - O - 1) := Nat.one_le_two_pow
    rw [Nat.cast_sub (by omega), Nat.cast_sub (by omega)]
    push_cast
    rw [hp, e, pow_add]
    ring

/-- What the lookup has to do with the one on the moved map. -/
structure ShiftedLookup (m : Shift) (z : ℕ) (o o' : MatchOpts) : Prop where
  zoom : o'.zoom = o.zoom
  point : o'.proximity = ((m.at z).opts o).proximity
  stays : ∀ p, o.proximity = some p → (m.at z).Stays p.1 p.2
  box : ∀ e, (m.at z).Stays e.x e.y → (InBox o' ((m.at z).entry e) ↔ InBox o e)

theorem stays_coord {m : Shift} {z x y : ℕ} (h : (m.at z).Stays x y) :
    ((((m.at z).move x y).1.toNat : ℕ) : ℤ) = m.dx * 2 ^ (z - m.zoom) + x ∧
      ((((m.at z).move x y).2.toNat : ℕ) : ℤ) = m.dy * 2 ^ (z - m.zoom) + y := by
  obtain ⟨⟨h1, -⟩, h2, -⟩ := h
  exact ⟨Int.toNat_of_nonneg h1, Int.toNat_of_nonneg h2⟩

theorem shift_adjusted {m : Shift} {opts : MatchOpts} {s : Store} (h : ShiftsOpts m opts)
    (hz : ZoomFits opts s) (hw : m.zoom ≤ s.zoom) :
    ShiftedLookup m s.zoom (opts.adjustToZoom s.zoom) ((m.opts opts).adjustToZoom s.zoom) := by
  have hz' : ZoomFits (m.opts opts) s := hz
  have hpt : ∀ p, opts.proximity = some p → ∃ p', (m.opts opts).proximity = some p' ∧
      (((pointAt opts.zoom p' s.zoom).1 : ℕ) : ℤ) =
        m.dx * 2 ^ (s.zoom - m.zoom) + (pointAt opts.zoom p s.zoom).1 ∧
      (((pointAt opts.zoom p' s.zoom).2 : ℕ) : ℤ) =
        m.dy * 2 ^ (s.zoom - m.zoom) + (pointAt opts.zoom p s.zoom).2 ∧
      (pointAt opts.zoom p' s.zoom).1 < 2 ^ 16 ∧ (pointAt opts.zoom p' s.zoom).2 < 2 ^ 16 := by
    intro p hp
    have hst := h.stays.2 p hp
    obtain ⟨c1, c2⟩ := stays_coord hst
    have hp' : (m.opts opts).proximity = some (((m.at opts.zoom).move p.1 p.2).1.toNat,
        ((m.at opts.zoom).move p.1 p.2).2.toNat) := by
      unfold Shift.opts Motion.opts
      rw [hp]
      rfl
    have hlt := pointAt_lt h.sound' hz' hp'
    have i1 := shift_pointAt hw h.whole c1
    have i2 := shift_pointAt hw h.whole c2
    refine ⟨_, hp', ?_, ?_, hlt⟩ <;> unfold pointAt <;> split_ifs with hc
    · exact i1.1 hc
    · exact i1.2 hc
    · exact i2.1 hc
    · exact i2.2 hc
  refine ⟨by rw [adjusted_zoom, adjusted_zoom], ?_, ?_, ?_⟩
  · cases hp : opts.proximity with
    | none =>
      have e1 : (opts.adjustToZoom s.zoom).proximity = none := by
        unfold MatchOpts.adjustToZoom
        split_ifs
        · exact hp
        · rw [hp]; rfl
      have hp' : (m.opts opts).proximity = none := by
        unfold Shift.opts Motion.opts
        rw [hp]
        rfl
      have e2 : ((m.opts opts).adjustToZoom s.zoom).proximity = none := by
        unfold MatchOpts.adjustToZoom
        split_ifs
        · exact hp'
        · rw [hp']; rfl
      rw [e2]
      unfold Motion.opts
      rw [e1]
      rfl
    | some p =>
      obtain ⟨p', hp', i1, i2, -⟩ := hpt p hp
      rw [adjusted_point h.sound' hz' hp']
      unfold Motion.opts
      rw [adjusted_point h.sound hz hp, Option.map_some, shift_at, ← i1, ← i2]
      rfl
  · intro p hp
    cases hq : opts.proximity with
    | none =>
      exfalso
      unfold MatchOpts.adjustToZoom at hp
      split_ifs at hp
      · rw [hq] at hp; cases hp
      · rw [hq] at hp; cases hp
    | some q =>
      rw [adjusted_point h.sound hz hq] at hp
      cases hp
      obtain ⟨p', -, i1, i2, i3, i4⟩ := hpt q hq
      unfold Motion.Stays
      rw [shift_at, ← i1, ← i2]
      refine ⟨⟨?_, ?_⟩, ?_, ?_⟩
      · positivity
      · change ((pointAt opts.zoom p' s.zoom).1 : ℤ) < 2 ^ 16
        exact_mod_cast i3
      · positivity
      · change ((pointAt opts.zoom p' s.zoom).2 : ℤ) < 2 ^ 16
        exact_mod_cast i4
  · intro e he
    obtain ⟨c1, c2⟩ := stays_coord he
    rw [inBox_iff, inBox_iff, adjusted_in h.sound hz, adjusted_in h.sound' hz']
    cases hb : opts.bbox with
    | none =>
      have : (m.opts opts).bbox = none := by
        unfold Shift.opts Motion.opts
        rw [hb]
        rfl
      rw [this]
      simp
    | some b =>
      have : (m.opts opts).bbox = some ((m.at opts.zoom).box b) := by
        unfold Shift.opts Motion.opts
        rw [hb]
        rfl
      rw [this]
      simp only [Option.some.injEq, forall_eq']
      obtain ⟨s1, s2⟩ := h.stays.1 b hb
      obtain ⟨d1, d2⟩ := stays_coord s1
      obtain ⟨d3, d4⟩ := stays_coord s2
      exact shift_touches hw h.whole c1 c2 d1 d2 d3 d4

theorem shift_nearby {m : Shift} {z : ℕ} {o o' : MatchOpts} (h : ShiftedLookup m z o o')
    (hf : o.proximity = none ∨ ∃ p p', o.proximity = some p ∧ o'.proximity = some p' ∧
      p.1 + nearbyPadding o.zoom < 2 ^ 16 ∧ p.2 + nearbyPadding o.zoom < 2 ^ 16 ∧
      p'.1 + nearbyPadding o.zoom < 2 ^ 16 ∧ p'.2 + nearbyPadding o.zoom < 2 ^ 16) :
    ShiftedLookup m z o.withNearbyOnly o'.withNearbyOnly := by
  obtain ⟨a1, a2⟩ := nearby_point o
  obtain ⟨b1, b2⟩ := nearby_point o'
  refine ⟨by rw [a1, b1, h.zoom], ?_, by rw [a2]; exact h.stays, ?_⟩
  · rw [b2, h.point]
    unfold Motion.opts
    rw [a2]
  · intro e he
    rcases hf with hn | ⟨p, p', hp, hp', f1, f2, f3, f4⟩
    · have hn' : o'.proximity = none := by
        rw [h.point]
        unfold Motion.opts
        rw [hn]
        rfl
      have i1 : o.withNearbyOnly = o := by unfold MatchOpts.withNearbyOnly; rw [hn]
      have i2 : o'.withNearbyOnly = o' := by unfold MatchOpts.withNearbyOnly; rw [hn']
      rw [i1, i2]
      exact h.box e he
    · have hpp : p' = (((m.at z).move p.1 p.2).1.toNat, ((m.at z).move p.1 p.2).2.toNat) := by
        have := h.point
        unfold Motion.opts at this
        rw [hp, hp'] at this
        exact Option.some.inj this
      obtain ⟨c1, c2⟩ := stays_coord (h.stays p hp)
      obtain ⟨d1, d2⟩ := stays_coord he
      have q1 : (p'.1 : ℤ) = m.dx * 2 ^ (z - m.zoom) + p.1 := by rw [hpp]; exact c1
      have q2 : (p'.2 : ℤ) = m.dy * 2 ^ (z - m.zoom) + p.2 := by rw [hpp]; exact c2
      have x1 : (((m.at z).entry e).x : ℤ) = m.dx * 2 ^ (z - m.zoom) + e.x := d1
      have y1 : (((m.at z).entry e).y : ℤ) = m.dy * 2 ^ (z - m.zoom) + e.y := d2
      have key : ∀ (oo : MatchOpts) (t : ℕ × ℕ) (g : GridEntry), oo.proximity = some t →
          t.1 + nearbyPadding oo.zoom < 2 ^ 16 → t.2 + nearbyPadding oo.zoom < 2 ^ 16 →
          (InBox oo.withNearbyOnly g ↔ InBox oo g ∧ (t.1 ≤ g.x + nearbyPadding oo.zoom ∧
            g.x ≤ t.1 + nearbyPadding oo.zoom) ∧ t.2 ≤ g.y + nearbyPadding oo.zoom ∧
            g.y ≤ t.2 + nearbyPadding oo.zoom) := by
        intro oo t g ht l1 l2
        rw [inBox_iff, inBox_iff]
        unfold MatchOpts.withNearbyOnly add16
        rw [ht]
        simp only [Option.some.injEq, forall_eq']
        rw [Nat.mod_eq_of_lt l1, Nat.mod_eq_of_lt l2]
        generalize nearbyPadding oo.zoom = n
        cases oo.bbox with
        | none =>
          simp only [reduceCtorEq, false_implies, implies_true, true_and]
          split_ifs <;> omega
        | some b =>
          simp only [Option.some.injEq, forall_eq', max_le_iff, le_min_iff]
          split_ifs <;> omega
      rw [key o p e hp f1 f2, key o' p' _ hp' (by rw [h.zoom]; exact f3) (by rw [h.zoom]; exact f4),
        h.box e he, h.zoom]
      refine and_congr_right fun _ => ?_
      generalize nearbyPadding o.zoom = n
      generalize m.dx * 2 ^ (z - m.zoom) = a at q1 x1
      generalize m.dy * 2 ^ (z - m.zoom) = b at q2 y1
      omega

theorem shift_report {m : Shift} {z : ℕ} {o o' : MatchOpts} (h : ShiftedLookup m z o o')
    (ho : OptsWf o) {e : GridEntry} (hx : e.x < 2 ^ 16) (hy : e.y < 2 ^ 16)
    (he : (m.at z).Stays e.x e.y) (radius : F64) (ml : Bool) :
    report o' radius ml ((m.at z).entry e) = (m.at z).result (report o radius ml e) := by
  have h1 : report o radius ml e = report { o with bbox := none } radius ml e :=
    report_box (opts := { o with bbox := none }) ⟨rfl, rfl⟩ _ _ _
  rw [h1, ← motion_report (o := { o with bbox := none }) ⟨nofun, ho.2⟩ ⟨nofun, h.stays⟩ hx hy he]
  exact (report_box (opts := o') ⟨h.point, h.zoom⟩ _ _ _).symm

theorem point_below {opts : MatchOpts} {s : Store} (hs : SoundOpts opts) {p : ℕ × ℕ}
    (hp : opts.proximity = some p) :
    (pointAt opts.zoom p s.zoom).1 < 2 ^ s.zoom ∧ (pointAt opts.zoom p s.zoom).2 < 2 ^ s.zoom := by
  have key : ∀ t, t < 2 ^ opts.zoom → (s.zoom ≤ opts.zoom → t / 2 ^ (opts.zoom - s.zoom) < 2 ^ s.zoom) ∧
      (¬ s.zoom ≤ opts.zoom →
        t * 2 ^ (s.zoom - opts.zoom) + 2 ^ (s.zoom - opts.zoom - 1) - 1 < 2 ^ s.zoom) := by
    intro t ht
    constructor
    · intro hc
      apply Nat.div_lt_of_lt_mul
      rw [← pow_add, Nat.sub_add_cancel hc]
      exact ht
    · intro hc
      obtain ⟨k, hk⟩ := Nat.exists_eq_add_of_lt (not_le.1 hc)
      have e : s.zoom - opts.zoom = k + 1 := by omega
      have e2 : 2 ^ s.zoom = 2 ^ opts.zoom * (2 ^ k * 2) := by
        rw [hk, Nat.add_assoc, pow_add, pow_succ 2 k]
      rw [e, Nat.add_sub_cancel, e2, pow_succ]
      have h1 : 1 ≤ 2 ^ k := Nat.one_le_two_pow
      have h2 : (t + 1) * (2 ^ k * 2) ≤ 2 ^ opts.zoom * (2 ^ k * 2) := Nat.mul_le_mul_right _ ht
      rw [add_mul, one_mul] at h2
      omega
  obtain ⟨h1, h2⟩ := hs.point p hp
  have k1 := key _ h1
  have k2 := key _ h2
  unfold pointAt
  split_ifs with hc
  · exact ⟨k1.1 hc, k2.1 hc⟩
  · exact ⟨k1.2 hc, k2.2 hc⟩

theorem padding_small {z : ℕ} (h : z ≤ 15) : nearbyPadding z ≤ 33 := by
  interval_cases z <;> decide +kernel

theorem shift_keyLookup {m : Shift} {opts : MatchOpts} {q q' : Subquery} (h : ShiftsOpts m opts)
    (hz : ZoomFits opts q.store) (hw : m.zoom ≤ q.store.zoom) (hqz : q'.store.zoom = q.store.zoom)
    {kg : KeyWithId} (hn : kg.nearbyOnly = true → opts.proximity = none ∨ q.store.zoom ≤ 15) :
    ShiftedLookup m q.store.zoom (keyLookup opts q kg) (keyLookup (m.opts opts) q' kg) := by
  have hA := shift_adjusted h hz hw
  unfold keyLookup
  rw [hqz]
  split_ifs with hk
  · refine shift_nearby hA ?_
    rcases hn hk with hp | hp
    · left
      unfold MatchOpts.adjustToZoom
      split_ifs
      · exact hp
      · rw [hp]; rfl
    · cases hpp : opts.proximity with
      | none =>
        left
        unfold MatchOpts.adjustToZoom
        split_ifs
        · exact hpp
        · rw [hpp]; rfl
      | some p =>
        have hz' : ZoomFits (m.opts opts) q.store := hz
        obtain ⟨p', hp'⟩ : ∃ p', (m.opts opts).proximity = some p' := by
          unfold Shift.opts Motion.opts
          rw [hpp]
          exact ⟨_, rfl⟩
        right
        refine ⟨_, _, adjusted_point h.sound hz hpp, adjusted_point h.sound' hz' hp', ?_⟩
        rw [adjusted_zoom]
        have l := padding_small hp
        have e1 := point_below (s := q.store) h.sound hpp
        have e2 := point_below (s := q.store) h.sound' hp'
        have l2 : 2 ^ q.store.zoom ≤ 2 ^ 15 := Nat.pow_le_pow_right (by norm_num) hp
        refine ⟨?_, ?_, ?_, ?_⟩ <;> omega
  · exact hA

/-! ## Searches -/

/-- The same feature at the moved tile. -/
def shiftPlace (m : Shift) (q : Subquery) (p p' : Place) : Prop :=
  ((p'.1 : ℤ), (p'.2.1 : ℤ)) = (m.at q.store.zoom).move p.1 p.2.1 ∧ p'.2.2 = p.2.2

theorem shift_nests {m : Shift} {pms : List Subquery} (hw : ∀ q ∈ pms, m.zoom ≤ q.store.zoom) :
    TilesNest (shiftPlace m) pms := by
  rintro a ha b hb p p' r r' ⟨hp, -⟩ ⟨hr, -⟩ ht
  have h1 := Prod.mk.inj hp
  have h2 := Prod.mk.inj hr
  have key : ∀ (d : ℤ) (x x' y y' n : ℕ), m.zoom ≤ a.store.zoom → b.store.zoom = a.store.zoom + n →
      (x' : ℤ) = d * 2 ^ (a.store.zoom - m.zoom) + x → (y' : ℤ) = d * 2 ^ (b.store.zoom - m.zoom) + y →
      x = y / 2 ^ n → x' = y' / 2 ^ n := by
    intro d x x' y y' n e1 e2 e3 e4 e5
    have e6 : b.store.zoom - m.zoom = a.store.zoom - m.zoom + n := by omega
    rw [e6, pow_add, ← mul_assoc] at e4
    have : (x' : ℤ) = (y' / 2 ^ n : ℕ) := by
      push_cast
      rw [e4, e3, e5, Int.add_comm _ (y : ℤ), Int.add_mul_ediv_right _ _ (by positivity), Int.add_comm]
      push_cast
      rfl
    exact_mod_cast this
  unfold TileContains at ht ⊢
  simp only at ht ⊢
  obtain ⟨t1, t2, t3⟩ := ht
  have e : b.store.zoom = a.store.zoom + (b.store.zoom - a.store.zoom) := by omega
  exact ⟨t1, key _ _ _ _ _ _ (hw a ha) e h1.1 h2.1 t2, key _ _ _ _ _ _ (hw a ha) e h1.2 h2.2 t3⟩

theorem shift_carry {env : Env} {m : Shift} {opts : MatchOpts} {st st' : ℕ → Store}
    {qs : List Subquery} (hchk : env.chk = false) (ho : ShiftsOpts m opts)
    (hf : ∀ q ∈ qs, ShiftsTo m (st q.idx) (st' q.idx))
    (hfit : ∀ q ∈ qs, (st q.idx).radius ≠ .nan ∧ ZoomFits opts (st q.idx))
    (hnear : NearbyFits st opts qs)
    (hk : ∀ q ∈ qs, ∀ kg ∈ q.matchKeys, GrownLookup (st q.idx) (st' q.idx) kg.key.phrase)
    (hfew : ∀ q ∈ qs, ∀ kg ∈ q.matchKeys, ∀ gs,
      answersTo env (m.opts opts) (withStore st' q) kg 100000 = some gs → gs.length ≤ 100000) :
    Carries (shiftPlace m) (· = ·) env opts (m.opts opts) (withStore st') (fun _ kg => kg)
      (qs.map (withStore st)) := by
  refine stores_carry (g := fun q _ => (m.at (st q.idx).zoom).result) ?_
  intro q hq kg hkm
  obtain ⟨hrad, hzq⟩ := hfit q hq
  have hst := hf q hq
  obtain ⟨c, w, w', hstay⟩ := hst.content
  obtain ⟨l1, o1, z1⟩ := lookupOpts_release (q := withStore st q) hchk ho.sound.wf ho.sound.zoom
    hzq.1 kg
  obtain ⟨l2, o2, z2⟩ := lookupOpts_release (q := withStore st' q) hchk ho.sound'.wf ho.sound'.zoom
    (by change (st' q.idx).zoom ≤ 16; rw [hst.zoom]; exact hzq.1) kg
  have hl : ShiftedLookup m (st q.idx).zoom (keyLookup opts (withStore st q) kg)
      (keyLookup (m.opts opts) (withStore st' q) kg) :=
    shift_keyLookup (q := withStore st q) (q' := withStore st' q) ho hzq hst.whole hst.zoom
      (hnear q hq kg hkm)
  generalize keyLookup opts (withStore st q) kg = o at l1 o1 z1 hl
  generalize keyLookup (m.opts opts) (withStore st' q) kg = o' at l2 o2 z2 hl
  have hbf : BoxFit env.chk o := by rw [hchk]; exact boxFit_false o
  have hbf' : BoxFit env.chk o' := by rw [hchk]; exact boxFit_false o'
  have hn : NumbersOk o (st q.idx).radius := fun _ => ⟨z1, hrad⟩
  have hn' : NumbersOk o' (st' q.idx).radius := by rw [hst.radius]; exact fun _ => ⟨z2, hrad⟩
  have hcom : Commutes c (st q.idx).radius o o' (m.at (st q.idx).zoom).entry
      (m.at (st q.idx).zoom).result := by
    intro k es e hk he
    have hs := hstay k es hk e he
    have hw := storeWith_wf w k es hk e he
    exact ⟨hl.box e hs, fun _ => shift_report hl o1 (e := storedAny e) hw.2.1 hw.2.2.1 hs _ _⟩
  obtain ⟨hph, gs, gs', g1, g2, g3, g4⟩ := mapped_lookup w w' hst.radius hcom env.merger env.rows
    kg.key.langSet o1 hbf hn o2 hbf' hn' (hk q hq kg hkm)
  have a2 : answersTo env (m.opts opts) (withStore st' q) kg 100000 = some gs' :=
    answersTo_some.2 ⟨o', l2, g2⟩
  have hin : ∀ a ∈ gs, (m.at (st q.idx).zoom).Stays a.entry.x a.entry.y := by
    intro a ha
    obtain ⟨k, es, e, ml, k1, k2, rfl⟩ := g4 a ha
    exact hstay k es k1 e k2
  refine ⟨gs, gs', ⟨answersTo_some.2 ⟨o, l1, g1⟩, a2, ?_, ?_, g3, fun _ _ => rfl, ?_, ?_⟩,
    hfew q hq kg hkm gs' a2⟩
  · exact ⟨o, _, C22_relevance_partial _ w.laid (st q.idx) rfl env.merger env.rows env.chk
      ⟨kg.key.phrase, kg.key.langSet⟩ hph o o1 hn _ (by norm_num) gs g1⟩
  · exact ⟨o', _, C22_relevance_partial _ w'.laid (st' q.idx) rfl env.merger env.rows env.chk
      ⟨kg.key.phrase, kg.key.langSet⟩ hph o' o2 hn' _ (by norm_num) gs' g2⟩
  · intro a ha
    obtain ⟨c1, c2⟩ := stays_coord (hin a ha)
    exact ⟨Prod.ext c1 c2, rfl⟩
  · rintro a ha b hb ⟨p1, p2, p3⟩
    obtain ⟨c1, c2⟩ := stays_coord (hin a ha)
    obtain ⟨d1, d2⟩ := stays_coord (hin b hb)
    simp only [Motion.result, Motion.entry] at p1 p2 p3
    rw [p1] at d1
    rw [p2] at d2
    refine ⟨?_, ?_, p3⟩ <;> omega

theorem back_move {m : Shift} {z x y : ℕ} (h : (m.at z).Stays x y) :
    (m.back.at z).move ((m.at z).move x y).1.toNat ((m.at z).move x y).2.toNat = ((x : ℤ), (y : ℤ)) := by
  obtain ⟨c1, c2⟩ := stays_coord h
  rw [shift_at, c1, c2]
  unfold Shift.back
  simp only
  exact Prod.ext (by ring) (by ring)

theorem back_stays {m : Shift} {z x y : ℕ} (h : (m.at z).Stays x y) (hx : x < 2 ^ 16)
    (hy : y < 2 ^ 16) :
    (m.back.at z).Stays ((m.at z).move x y).1.toNat ((m.at z).move x y).2.toNat := by
  unfold Motion.Stays
  rw [back_move h]
  simp only
  omega

theorem back_entry {m : Shift} {z : ℕ} {e : GridEntry} (h : (m.at z).Stays e.x e.y) :
    (m.back.at z).entry ((m.at z).entry e) = e := by
  unfold Motion.entry
  rw [back_move h]
  rfl

theorem Spec.ShiftsTo.symm {m : Shift} {s s' : Store} (h : ShiftsTo m s s') :
    ShiftsTo m.back s' s := by
  obtain ⟨c, h1, h2, h3⟩ := h.content
  refine ⟨h.zoom.symm, h.typeId.symm, h.radius.symm, by rw [h.zoom]; exact h.whole, _, h2, ?_, ?_⟩
  · have : (m.back.at s'.zoom).content ((m.at s.zoom).content c) = c := by
      rw [h.zoom]
      funext k
      unfold Motion.content
      cases hk : c k with
      | none => rfl
      | some es =>
        simp only [Option.map_some, List.map_map, Option.some.injEq]
        conv_rhs => rw [← List.map_id es]
        exact List.map_congr_left fun e he => back_entry (h3 k es hk e he)
    rw [this]
    exact h1
  · intro k es hk e he
    obtain ⟨es', h4, rfl⟩ := Option.map_eq_some_iff.1 hk
    obtain ⟨e', h5, rfl⟩ := List.mem_map.1 he
    have hw := storeWith_wf h1 k es' h4 e' h5
    rw [h.zoom]
    exact back_stays (h3 k es' h4 e' h5) hw.2.1 hw.2.2.1

theorem back_opts {m : Shift} {opts : MatchOpts} (h : (m.at opts.zoom).StaysOpts opts) :
    m.back.opts (m.opts opts) = opts := by
  obtain ⟨h1, h2⟩ := h
  unfold Shift.opts Motion.opts
  obtain ⟨bbox, point, zoom⟩ := opts
  simp only [Option.map_map] at h1 h2 ⊢
  congr 1
  · cases bbox with
    | none => rfl
    | some b =>
      obtain ⟨s1, s2⟩ := h1 b rfl
      have e1 := back_move s1
      have e2 := back_move s2
      have : (m.back.at zoom).box ((m.at zoom).box b) = b := by
        have f1 := Prod.mk.inj e1
        have f2 := Prod.mk.inj e2
        cases b
        unfold Motion.box
        simp only [BBox.mk.injEq]
        exact ⟨congrArg Int.toNat f1.1, congrArg Int.toNat f1.2, congrArg Int.toNat f2.1,
          congrArg Int.toNat f2.2⟩
      rw [Option.map_some, Function.comp_apply, this]
  · cases point with
    | none => rfl
    | some p =>
      rw [Option.map_some, Function.comp_apply, back_move (h2 p rfl)]
      rfl

theorem Spec.ShiftsOpts.symm {m : Shift} {opts : MatchOpts} (h : ShiftsOpts m opts) :
    ShiftsOpts m.back (m.opts opts) := by
  refine ⟨h.sound', by rw [back_opts h.stays]; exact h.sound, h.whole, ?_, ?_⟩
  · intro b hb
    obtain ⟨b0, h0, rfl⟩ := Option.map_eq_some_iff.1 hb
    obtain ⟨s1, s2⟩ := h.stays.1 b0 h0
    obtain ⟨w1, w2, w3, w4⟩ := h.sound.box b0 h0
    have hp : 2 ^ opts.zoom ≤ 2 ^ 16 := Nat.pow_le_pow_right (by norm_num) h.sound.zoom
    have t1 := back_stays s1 (by omega) (by omega)
    have t2 := back_stays s2 (by omega) (by omega)
    exact ⟨t1, t2⟩
  · intro p hp
    obtain ⟨p0, h0, rfl⟩ := Option.map_eq_some_iff.1 hp
    obtain ⟨w1, w2⟩ := h.sound.point p0 h0
    have hp : 2 ^ opts.zoom ≤ 2 ^ 16 := Nat.pow_le_pow_right (by norm_num) h.sound.zoom
    exact back_stays (h.stays.2 p0 h0) (by omega) (by omega)

/-- **C96**, `stack_and_coalesce`: the map is moved by whole tiles, and the request with it. Every context
comes back with the same match keys, features and relevances at the moved tiles. Left out are contexts
of one phrase match nothing can be put below, which compete for 40 places. -/
theorem C96_search {env : TreeEnv} (hchk : env.chk = false) {m : Shift} {qs : List Subquery}
    {opts : MatchOpts} (ho : ShiftsOpts m opts) {st st' : ℕ → Store}
    (hf : ∀ q ∈ qs, ShiftsTo m (st q.idx) (st' q.idx))
    (hfit : ∀ q ∈ qs, (st q.idx).radius ≠ .nan ∧ ZoomFits opts (st q.idx))
    (hnear : NearbyFits st opts qs)
    (hk : ∀ q ∈ qs, ∀ kg ∈ q.matchKeys, GrownLookup (st q.idx) (st' q.idx) kg.key.phrase)
    (hans : ∀ q ∈ qs, ∀ kg ∈ q.matchKeys, ∀ gs,
      answersTo env.toEnv (m.opts opts) (withStore st' q) kg 100000 = some gs → gs.length ≤ 100000)
    (hbox : BoxesCover env.toEnv (m.opts opts) (qs.map (withStore st')))
    (hd : Delivered qs) (hfew : FewGroupStacks 2000 (qs.map (withStore st)))
    (hz : ZoomsAscend (qs.map (withStore st))) (hroom : RoomForGroups (qs.map (withStore st)))
    (hw : WeightsPositive qs) {out out' : List Context}
    (hout : stackAndCoalesce env (qs.map (withStore st)) opts = some out)
    (hout' : stackAndCoalesce env (qs.map (withStore st')) (m.opts opts) = some out')
    (hlen : Short out') :
    ∀ c ∈ out, LoneResult env.toEnv opts (qs.map (withStore st)) c ∨
      ∃ c' ∈ out', ShiftedContext m st c c' := by
  intro c hc
  have hty : ∀ q ∈ qs, (st' q.idx).typeId = (st q.idx).typeId := fun q hq => (hf q hq).typeId
  have hzo : ∀ q ∈ qs, (st' q.idx).zoom = (st q.idx).zoom := fun q hq => (hf q hq).zoom
  have hsh := withStore_shapes hty hzo
  rcases C91_sound (withStore_delivered st hd) hfew (Or.inr hz) hout c hc with ⟨hs', h1, -, h3⟩ | h
  · right
    obtain ⟨hs2, c', -, r1, r2, r3⟩ := moved_context hsh.toSameForm (pl := shiftPlace m)
      (shift_nests fun q hq => by obtain ⟨a, ha, rfl⟩ := List.mem_map.1 hq; exact (hf a ha).whole)
      (Or.inr (Or.inr rfl)) (withStore_weights st hw) (withStore_weights st' hw) (fun _ _ => rfl)
      (shift_carry hchk ho hf hfit hnear hk hans) h1 h3
    refine ⟨c', C91_complete (withStore_delivered st' hd) (hsh.few hfew)
      (Or.inr (withStore_zooms hty hzo hz)) (hsh.room
      ⟨fun _ _ => rfl, fun _ _ => rfl, fun _ _ _ _ h => h⟩ hroom) hout' hlen c'
      ((C91_covered hbox).2 (Or.inl ⟨hs2, r1, r2⟩)), ?_, r3.mask, r3.relev.symm⟩
    refine r3.parts.imp ?_
    rintro e e' ⟨⟨q, hq, hi, h1, h6⟩, ⟨h2, h3, h4⟩, h5⟩
    obtain ⟨a, ha, rfl⟩ := List.mem_map.1 hq
    refine ⟨?_, h6, h2, h3, h4, h5.symm⟩
    rw [← hi]
    exact h1
  · exact Or.inl h

/-- **C96**, `stack_and_coalesce`, the other way: nothing else comes back. -/
theorem C96_nothing_new {env : TreeEnv} (hchk : env.chk = false) {m : Shift} {qs : List Subquery}
    {opts : MatchOpts} (ho : ShiftsOpts m opts) {st st' : ℕ → Store}
    (hf : ∀ q ∈ qs, ShiftsTo m (st q.idx) (st' q.idx))
    (hfit : ∀ q ∈ qs, (st q.idx).radius ≠ .nan ∧ ZoomFits opts (st q.idx))
    (hnear : NearbyFits st opts qs)
    (hk : ∀ q ∈ qs, ∀ kg ∈ q.matchKeys, GrownLookup (st q.idx) (st' q.idx) kg.key.phrase)
    (hans : ∀ q ∈ qs, ∀ kg ∈ q.matchKeys, ∀ gs,
      answersTo env.toEnv opts (withStore st q) kg 100000 = some gs → gs.length ≤ 100000)
    (hbox : BoxesCover env.toEnv opts (qs.map (withStore st)))
    (hd : Delivered qs) (hfew : FewGroupStacks 2000 (qs.map (withStore st)))
    (hz : ZoomsAscend (qs.map (withStore st))) (hroom : RoomForGroups (qs.map (withStore st)))
    (hw : WeightsPositive qs) {out out' : List Context}
    (hout : stackAndCoalesce env (qs.map (withStore st)) opts = some out)
    (hout' : stackAndCoalesce env (qs.map (withStore st')) (m.opts opts) = some out')
    (hlen : Short out) :
    ∀ c' ∈ out', LoneResult env.toEnv (m.opts opts) (qs.map (withStore st')) c' ∨
      ∃ c ∈ out, ShiftedContext m.back st' c' c := by
  have hty : ∀ q ∈ qs, (st' q.idx).typeId = (st q.idx).typeId := fun q hq => (hf q hq).typeId
  have hzo : ∀ q ∈ qs, (st' q.idx).zoom = (st q.idx).zoom := fun q hq => (hf q hq).zoom
  have hsh := withStore_shapes hty hzo
  have hb := back_opts ho.stays
  refine C96_search hchk ho.symm (fun q hq => (hf q hq).symm) (fun q hq => ?_) ?_
    (fun q hq kg hkm => (hk q hq kg hkm).symm) (by rw [hb]; exact hans) (by rw [hb]; exact hbox) hd
    (hsh.few hfew) (withStore_zooms hty hzo hz) (hsh.room
      ⟨fun _ _ => rfl, fun _ _ => rfl, fun _ _ _ _ h => h⟩ hroom) hw hout' (by rw [hb]; exact hout) hlen
  · have := hfit q hq
    unfold ZoomFits at this ⊢
    rw [(hf q hq).radius, (hf q hq).zoom]
    exact this
  · intro q hq kg hkm hn
    rw [(hf q hq).zoom]
    refine (hnear q hq kg hkm hn).imp_left fun h => ?_
    unfold Shift.opts Motion.opts
    rw [h]
    rfl

/-! ## Cases -/

/-- Two tiles of zoom 6 to the right and three down. -/
def eastwards : Shift := ⟨6, 2, 3⟩

/-- The region of `smallRegion` and the street of `smallStreet`, moved. -/
def eastRegion : List Call := [.append ⟨1, 1⟩ [⟨1, 3, 3, 4, 7, 0⟩]]

def eastStreet : List Call := [.append ⟨2, 1⟩ [⟨lit 0.8, 3, 12, 16, 5, 0⟩]]

theorem eastRegion_to : ShiftsTo eastwards (growthStore smallRegion 6 0) (growthStore eastRegion 6 0) := by
  refine ⟨rfl, rfl, rfl, by decide, _, smallRegion_with, ?_, ?_⟩
  · have : (eastwards.at 6).content (Content.run smallRegion) = Content.run eastRegion := by
      funext k
      simp only [smallRegion, eastRegion, Content.run, List.foldl_cons, List.foldl_nil, Content.call,
        Content.set, Motion.content]
      by_cases hk : k = ⟨1, 1⟩
      · subst hk
        simp [Motion.entry, shift_at, eastwards]
      · simp [hk]
    rw [show (growthStore smallRegion 6 0).zoom = 6 from rfl, this]
    refine growth_storeWith ?_ ?_ (by decide +kernel) (by decide +kernel) _ _ <;> intro d hd <;>
      simp only [eastRegion, List.mem_cons, List.not_mem_nil, or_false] at hd
    · exact ⟨_, _, hd⟩
    · subst hd
      simp [Call.Wf, GridKey.Wf, GridEntry.Wf]
  · intro k es hk e he
    simp only [smallRegion, Content.run, List.foldl_cons, List.foldl_nil, Content.call,
      Content.set] at hk
    split_ifs at hk
    cases hk
    simp only [Option.getD_none, List.nil_append, List.mem_cons, List.not_mem_nil, or_false] at he
    rw [he]
    simp [Motion.Stays, shift_at, eastwards, growthStore, Store.openWith]

theorem eastStreet_to : ShiftsTo eastwards (growthStore smallStreet 8 1) (growthStore eastStreet 8 1) := by
  refine ⟨rfl, rfl, rfl, by decide, _, smallStreet_with, ?_, ?_⟩
  · have : (eastwards.at 8).content (Content.run smallStreet) = Content.run eastStreet := by
      funext k
      simp only [smallStreet, eastStreet, Content.run, List.foldl_cons, List.foldl_nil, Content.call,
        Content.set, Motion.content]
      by_cases hk : k = ⟨2, 1⟩
      · subst hk
        simp [Motion.entry, shift_at, eastwards]
      · simp [hk]
    rw [show (growthStore smallStreet 8 1).zoom = 8 from rfl, this]
    refine growth_storeWith ?_ ?_ (by decide +kernel) (by decide +kernel) _ _ <;> intro d hd <;>
      simp only [eastStreet, List.mem_cons, List.not_mem_nil, or_false] at hd
    · exact ⟨_, _, hd⟩
    · subst hd
      simp [Call.Wf, GridKey.Wf, GridEntry.Wf]
  · intro k es hk e he
    simp only [smallStreet, Content.run, List.foldl_cons, List.foldl_nil, Content.call,
      Content.set] at hk
    split_ifs at hk
    cases hk
    simp only [Option.getD_none, List.nil_append, List.mem_cons, List.not_mem_nil, or_false] at he
    rw [he]
    simp [Motion.Stays, shift_at, eastwards, growthStore, Store.openWith]

/-- The indexes after. -/
def eastStores (i : ℕ) : Store :=
  if i = 0 then growthStore eastRegion 6 0 else growthStore eastStreet 8 1

/-- A request with a box and a point. -/
def eastOpts : MatchOpts := ⟨some ⟨0, 0, 5, 5⟩, some (1, 2), 6⟩

theorem eastOpts_shifts : ShiftsOpts eastwards eastOpts := by
  refine ⟨⟨by decide, ?_, ?_⟩, ⟨by decide, ?_, ?_⟩, by decide, ?_, ?_⟩
  · rintro p ⟨⟩
    decide
  · rintro b ⟨⟩
    decide
  · rintro p ⟨⟩
    decide
  · rintro b ⟨⟩
    decide
  · rintro b ⟨⟩
    simp [Motion.Stays, shift_at, eastwards, eastOpts]
  · rintro p ⟨⟩
    simp [Motion.Stays, shift_at, eastwards, eastOpts]

example : eastwards.opts eastOpts = ⟨some ⟨2, 3, 7, 8⟩, some (3, 5), 6⟩ := rfl

example : ∃ out out',
    stackAndCoalesce (listTreeEnv false) (growthMatches.map (withStore labelStores)) eastOpts =
      some out ∧
    stackAndCoalesce (listTreeEnv false) (growthMatches.map (withStore eastStores))
      (eastwards.opts eastOpts) = some out' ∧
    (∃ c ∈ out, c.entries.length = 2) ∧
    (∀ c ∈ out, LoneResult (listTreeEnv false).toEnv eastOpts
      (growthMatches.map (withStore labelStores)) c ∨
        ∃ c' ∈ out', ShiftedContext eastwards labelStores c c') ∧
    ∀ c' ∈ out', LoneResult (listTreeEnv false).toEnv (eastwards.opts eastOpts)
      (growthMatches.map (withStore eastStores)) c' ∨
        ∃ c ∈ out, ShiftedContext eastwards.back eastStores c' c := by
  have h1 : (stackAndCoalesce (listTreeEnv false) (growthMatches.map (withStore labelStores))
      eastOpts).map (fun out => decide (out.length < 40 ∧ ∃ c ∈ out, c.entries.length = 2)) =
        some true := by decide +kernel
  have h2 : (stackAndCoalesce (listTreeEnv false) (growthMatches.map (withStore eastStores))
      (eastwards.opts eastOpts)).map (fun out => decide (out.length < 40)) = some true := by
    decide +kernel
  obtain ⟨out, h1, h3⟩ := Option.map_eq_some_iff.1 h1
  obtain ⟨out', h2, h4⟩ := Option.map_eq_some_iff.1 h2
  obtain ⟨h3, h5⟩ := of_decide_eq_true h3
  have h4 := of_decide_eq_true h4
  have hf : ∀ q ∈ growthMatches, ShiftsTo eastwards (labelStores q.idx) (eastStores q.idx) := by
    intro q hq
    simp only [growthMatches, List.mem_cons, List.not_mem_nil, or_false] at hq
    rcases hq with rfl | rfl
    · exact eastRegion_to
    · exact eastStreet_to
  have hfit : ∀ q ∈ growthMatches, (labelStores q.idx).radius ≠ .nan ∧
      ZoomFits eastOpts (labelStores q.idx) := by
    unfold ZoomFits
    decide +kernel
  have hnear : NearbyFits labelStores eastOpts growthMatches := by
    unfold NearbyFits
    decide +kernel
  have hk : ∀ q ∈ growthMatches, ∀ kg ∈ q.matchKeys,
      GrownLookup (labelStores q.idx) (eastStores q.idx) kg.key.phrase := by
    intro q hq kg hk
    simp only [growthMatches, List.mem_cons, List.not_mem_nil, or_false] at hq
    rcases hq with rfl | rfl <;> rw [List.mem_singleton.1 hk] <;>
      exact Or.inl ⟨growth_plain (by norm_num) (by decide +kernel),
        growth_plain (by norm_num) (by decide +kernel)⟩
  have hans : ∀ p ∈ [(labelStores, eastOpts), (eastStores, eastwards.opts eastOpts)],
      ∀ q ∈ growthMatches, ∀ kg ∈ q.matchKeys, ∀ gs,
      answersTo (listTreeEnv false).toEnv p.2 (withStore p.1 q) kg 100000 = some gs →
        gs.length ≤ 100000 := by
    intro st hst q hq kg hk gs hgs
    have : ∀ x : Option (List MatchEntry), x.map List.length = some 1 → x = some gs →
        gs.length ≤ 100000 := by
      rintro x hx rfl
      simp only [Option.map_some, Option.some.injEq] at hx
      omega
    simp only [growthMatches, List.mem_cons, List.not_mem_nil, or_false] at hq hst
    rcases hst with rfl | rfl <;> rcases hq with rfl | rfl <;> rw [List.mem_singleton.1 hk] at hgs <;>
      exact this _ (by decide +kernel) hgs
  have hroom : RoomForGroups (growthMatches.map (withStore labelStores)) := by
    refine room_of_small (by decide +kernel) (by decide +kernel) ?_
    intro q hq kg hk
    simp only [growthMatches, List.map_cons, List.map_nil, List.mem_cons, List.not_mem_nil,
      or_false] at hq
    rcases hq with rfl | rfl <;> exact ⟨_, by rw [List.mem_singleton.1 hk]⟩
  have hd : Delivered growthMatches := ⟨by decide +kernel, by decide +kernel, by decide +kernel⟩
  have hz : ZoomsAscend (growthMatches.map (withStore labelStores)) := by
    unfold ZoomsAscend
    decide +kernel
  have hw : WeightsPositive growthMatches := by
    unfold WeightsPositive
    decide +kernel
  exact ⟨out, out', h1, h2, h5,
    C96_search rfl eastOpts_shifts hf hfit hnear hk (hans (_, _) (List.mem_cons_of_mem _ List.mem_cons_self))
      (boxesCover_of (by decide +kernel)) hd (few_of_small (by decide +kernel)) hz hroom hw h1 h2
      (short_of_few h4),
    C96_nothing_new rfl eastOpts_shifts hf hfit hnear hk (hans (_, _) List.mem_cons_self)
      (boxesCover_of (by decide +kernel)) hd (few_of_small (by decide +kernel)) hz hroom hw h1 h2
      (short_of_few h3)⟩

/-- 80 features at one tile and two at another one, alike but for their ids. -/
def twoTiles (a b : ℕ × ℕ) : Store :=
  Store.openWith ((finish .id (Builder.new.append ⟨1, 1⟩ ((List.range 80).map (fun i =>
    ⟨1, 3, a.1, a.2, i + 1, 0⟩) ++ (List.range 2).map (fun i =>
    ⟨1, 3, b.1, b.2, i + 81, 0⟩)))).getD []) 6 0 (lit 100) [⟨0, 0, 63, 63⟩] 0

/-- C96 cannot say it of contexts of one phrase match nothing can be put below: 80 results are taken, of
equal ones in the order of their tiles along the curve, and moving the map changes that order. Moved by
one tile to the right, 82 features that differ only in their ids and tiles give way to each other. -/
theorem C96_lone_by_tile : ∃ out out', stackAndCoalesce (listTreeEnv false)
      [⟨twoTiles (0, 1) (1, 0), 0, [], 1, 1, [⟨⟨.exact 1, 1⟩, false, 0, 5⟩]⟩] plainOpts = some out ∧
    stackAndCoalesce (listTreeEnv false)
      [⟨twoTiles (1, 1) (2, 0), 0, [], 1, 1, [⟨⟨.exact 1, 1⟩, false, 0, 5⟩]⟩] plainOpts = some out' ∧
    (∃ c ∈ out, c.first.entry.id = 42) ∧ (∀ c ∈ out', c.first.entry.id ≠ 42) ∧
    (∀ c ∈ out, c.first.entry.id ≠ 81) ∧ ∃ c ∈ out', c.first.entry.id = 81 := by
  have h1 : (stackAndCoalesce (listTreeEnv false)
      [⟨twoTiles (0, 1) (1, 0), 0, [], 1, 1, [⟨⟨.exact 1, 1⟩, false, 0, 5⟩]⟩] plainOpts).map
        (fun out => decide ((∃ c ∈ out, c.first.entry.id = 42) ∧
          ∀ c ∈ out, c.first.entry.id ≠ 81)) = some true := by
    decide +kernel
  have h2 : (stackAndCoalesce (listTreeEnv false)
      [⟨twoTiles (1, 1) (2, 0), 0, [], 1, 1, [⟨⟨.exact 1, 1⟩, false, 0, 5⟩]⟩] plainOpts).map
        (fun out => decide ((∀ c ∈ out, c.first.entry.id ≠ 42) ∧
          ∃ c ∈ out, c.first.entry.id = 81)) = some true := by
    decide +kernel
  obtain ⟨out, h1, h3⟩ := Option.map_eq_some_iff.1 h1
  obtain ⟨out', h2, h4⟩ := Option.map_eq_some_iff.1 h2
  obtain ⟨h3, h5⟩ := of_decide_eq_true h3
  obtain ⟨h4, h6⟩ := of_decide_eq_true h4
  exact ⟨out, out', h1, h2, h3, h4, h5, h6⟩

end Carmen

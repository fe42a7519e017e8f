import Verif.Spec.Ground
import Verif.Spec.TreeCoalesce
import Verif.Lemmas.QueryIds
import Verif.Lemmas.Spatial
import Verif.Props.Zoom

/-!
# Lemmas on where results lie
-/

namespace Carmen
open Spec Format

/-! ## The tile selection keeps to the box, for any vector of tiles -/

theorem filteredGet_inBox {cs : List Coord} {b : BBox} {i : ℕ} {c : Coord}
    (h : filteredGet cs b i = some c) : inBox b c.coord = true :=
  (Option.filter_eq_some_iff.1 h).2

theorem selectCoords_inBox {opts : MatchOpts} {b : BBox} (hb : opts.bbox = some b)
    {cs : List Coord} : ∀ c ∈ selectCoords opts cs, inBox b c.coord = true := by
  intro c hc
  unfold selectCoords at hc
  rw [hb] at hc
  cases hp : opts.proximity with
  | none =>
    rw [hp] at hc
    dsimp only at hc
    cases hf : bboxFilter cs b with
    | none => rw [hf] at hc; cases hc
    | some l =>
      rw [hf] at hc
      unfold bboxFilter at hf
      split_ifs at hf
      obtain ⟨r, -, rfl⟩ := Option.map_eq_some_iff.1 hf
      obtain ⟨i, -, hi⟩ := List.mem_filterMap.1 hc
      exact filteredGet_inBox hi
  | some p =>
    rw [hp] at hc
    dsimp only at hc
    cases hf : bboxProximity cs b p with
    | none => rw [hf] at hc; cases hc
    | some l =>
      rw [hf] at hc
      unfold bboxProximity at hf
      split at hf
      · cases hf
      · dsimp only at hf
        split_ifs at hf
        obtain ⟨mid, -, rfl⟩ := Option.map_eq_some_iff.1 hf
        rcases List.mem_append.1 ((mergeBy_perm _ _ _).mem_iff.1 hc) with h | h
        all_goals
          obtain ⟨i, -, hi⟩ := List.mem_filterMap.1 h
          exact filteredGet_inBox hi

/-- The result lies in the box of the options. -/
def BoxKept (opts : MatchOpts) (r : MatchEntry) : Prop :=
  ∀ b, opts.bbox = some b → TileInBox b (r.entry.x, r.entry.y)

theorem decodeMatching_boxKept {M : KMerger} {chk : Bool} {opts : MatchOpts} {ml : Bool}
    {radius : F64} {v : Bytes} {es : List MatchEntry}
    (h : decodeMatching M chk opts ml radius v = some es) : ∀ r ∈ es, BoxKept opts r := by
  unfold decodeMatching at h
  simp only [Option.bind_eq_bind, Option.bind_eq_some_iff] at h
  obtain ⟨root, -, rss, -, groups, hg, h⟩ := h
  cases h
  intro r hr b hb
  obtain ⟨l, hl, hr⟩ := List.mem_flatten.1 hr
  obtain ⟨g, hgm, hgl⟩ := mapM_mem hg l hl
  simp only [Option.bind_eq_some_iff] at hgl
  obtain ⟨streams, hst, merged, hm, es, hes, hgl⟩ := hgl
  cases hgl
  obtain ⟨l, hl, hr⟩ := List.mem_flatten.1 hr
  obtain ⟨sc, hsc, hids⟩ := mapM_mem hes l hl
  obtain ⟨ids, hrd, hids⟩ := Option.bind_eq_some_iff.1 hids
  cases hids
  obtain ⟨i, hi, rfl⟩ := List.mem_map.1 hr
  obtain ⟨l', hl', hmem⟩ := mergeScores_mem hm sc hsc
  obtain ⟨rs, -, hrs⟩ := mapM_mem hst l' hl'
  simp only [Option.bind_eq_some_iff] at hrs
  obtain ⟨cs, -, hrs⟩ := hrs
  split_ifs at hrs
  rw [← Option.some.inj hrs] at hmem
  obtain ⟨c, hc, rfl⟩ := List.mem_map.1 hmem
  have hin := selectCoords_inBox hb c hc
  have hcc : (scoreCoord opts radius (rs.relevScore &&& 15) c).coord = c := by
    unfold scoreCoord
    split <;> rfl
  unfold inBox at hin
  simp only [Bool.and_eq_true, decide_eq_true_eq] at hin
  unfold TileInBox mkMatch
  rw [hcc]
  exact ⟨hin.1.1.1, hin.1.1.2, hin.1.2, hin.2⟩

theorem fillQueue_boxKept {M : KMerger} {H : Heap QueueElement.key} {chk : Bool} {s : Store}
    {mk : MatchKey} {opts : MatchOpts} {n : ℕ} {rows : List (Bytes × Bytes)}
    {q q' : List QueueElement} (h : Store.fillQueue M H chk s mk opts n q rows = some q')
    (hq : ∀ e ∈ q, ∀ x ∈ e.next :: e.rest, BoxKept opts x) :
    ∀ e ∈ q', ∀ x ∈ e.next :: e.rest, BoxKept opts x := by
  induction rows generalizing q with
  | nil =>
    unfold Store.fillQueue at h
    cases h
    exact hq
  | cons r t ih =>
    unfold Store.fillQueue at h
    simp only [Option.bind_eq_bind, Option.bind_eq_some_iff] at h
    obtain ⟨e, he, h⟩ := h
    cases e with
    | none => exact ih h hq
    | some e =>
      simp only [Option.bind_eq_some_iff] at h
      obtain ⟨q1, h1, h⟩ := h
      refine ih h ?_
      intro x hx
      rcases pushRow_mem h1 x hx with rfl | hx
      · unfold Store.rowElement at he
        simp only [Option.bind_eq_bind, Option.bind_eq_some_iff] at he
        obtain ⟨ml, -, es, hes, he⟩ := he
        have := decodeMatching_boxKept hes
        cases es with
        | nil => simp at he
        | cons a t =>
          simp only [Option.some.injEq] at he
          subst he
          exact this
      · exact hq x hx

theorem getMatching_boxKept {M : KMerger} {H : Heap QueueElement.key} {chk : Bool} {s : Store}
    {mk : MatchKey} {opts : MatchOpts} {n : ℕ} {out : List MatchEntry}
    (h : s.getMatching M H chk mk opts n = some out) : ∀ r ∈ out, BoxKept opts r := by
  unfold Store.getMatching at h
  simp only [Option.bind_eq_bind, Option.bind_eq_some_iff] at h
  obtain ⟨rows, hr, q, hf, h⟩ := h
  cases h
  refine drain_mem _ (fillQueue_boxKept hf ?_)
  intro e he
  cases he

theorem IsResult.measured {opts : MatchOpts} {radius : F64} {r : MatchEntry}
    (h : IsResult opts radius r) {p : ℕ × ℕ} (hp : opts.proximity = some p) :
    r.distance = tileDist p.1 p.2 r.entry.x r.entry.y ∧
      r.scoredist = scoredist opts.zoom r.distance r.entry.score radius := by
  obtain ⟨ml, n, score, c, i, -, rfl⟩ := h
  unfold scoreCoord mkMatch
  rw [hp]
  exact ⟨rfl, rfl⟩

/-! ## Tiles and ground -/

theorem inTile_corner (z : ℕ) (t : ℕ × ℕ) : InTile z t (t.1 / 2 ^ z) (t.2 / 2 ^ z) := by
  unfold InTile
  have h : (2 : ℚ) ^ z ≠ 0 := by positivity
  rw [div_mul_cancel₀ _ h, div_mul_cancel₀ _ h]
  exact ⟨le_rfl, by linarith, le_rfl, by linarith⟩

/-- One axis: a point of a tile of the higher zoom lies in the tile it becomes at the lower zoom. -/
theorem axis_div {x n : ℕ} {w : ℚ} (h1 : (x : ℚ) ≤ w * 2 ^ n) (h2 : w * 2 ^ n < x + 1) :
    ((x / 2 ^ n : ℕ) : ℚ) ≤ w ∧ w < ((x / 2 ^ n : ℕ) : ℚ) + 1 := by
  have hp : (0 : ℚ) < 2 ^ n := by positivity
  have hd := Nat.div_add_mod x (2 ^ n)
  have hm := Nat.mod_lt x (Nat.two_pow_pos n)
  have hd' : ((2 ^ n : ℕ) : ℚ) * ((x / 2 ^ n : ℕ) : ℚ) + ((x % 2 ^ n : ℕ) : ℚ) = x := by
    exact_mod_cast hd
  have hm' : ((x % 2 ^ n : ℕ) : ℚ) + 1 ≤ 2 ^ n := by exact_mod_cast hm
  have hm0 : (0 : ℚ) ≤ ((x % 2 ^ n : ℕ) : ℚ) := Nat.cast_nonneg _
  push_cast at hd' 
  constructor
  · by_contra hc
    push Not at hc
    have := mul_lt_mul_of_pos_right hc hp
    linarith
  · by_contra hc
    push Not at hc
    have := mul_le_mul_of_nonneg_right hc hp.le
    linarith

theorem inTile_ancestor {z n : ℕ} {t : ℕ × ℕ} {u v : ℚ} (h : InTile (z + n) t u v) :
    InTile z (ancestorTile n t) u v := by
  obtain ⟨h1, h2, h3, h4⟩ := h
  rw [pow_add, ← mul_assoc] at h1 h2 h3 h4
  obtain ⟨a1, a2⟩ := axis_div h1 h2
  obtain ⟨a3, a4⟩ := axis_div h3 h4
  exact ⟨a1, a2, a3, a4⟩

theorem inBox_of_inTile {z : ℕ} {b : BBox} {t : ℕ × ℕ} (h : TileInBox b t) {u v : ℚ}
    (ht : InTile z t u v) : InArea z b u v := by
  obtain ⟨h1, h2, h3, h4⟩ := h
  obtain ⟨t1, t2, t3, t4⟩ := ht
  have e1 : (b.minX : ℚ) ≤ t.1 := by exact_mod_cast h1
  have e2 : (t.1 : ℚ) ≤ b.maxX := by exact_mod_cast h2
  have e3 : (b.minY : ℚ) ≤ t.2 := by exact_mod_cast h3
  have e4 : (t.2 : ℚ) ≤ b.maxY := by exact_mod_cast h4
  exact ⟨by linarith, by linarith, by linarith, by linarith⟩

theorem touches_of_within {z z' : ℕ} {t : ℕ × ℕ} {b : BBox} (h : Within z t z' b) :
    Touches z t z' b := ⟨_, _, inTile_corner z t, h _ _ (inTile_corner z t)⟩

/-! ## The options of a lookup -/

theorem Spec.SoundOpts.optsAt {opts : MatchOpts} (h : SoundOpts opts) : OptsAt opts :=
  ⟨fun p hp => h.point p hp, fun b hb => by
    obtain ⟨h1, h2, h3, h4⟩ := h.box b hb
    exact ⟨by omega, by omega, h2, h4⟩⟩

theorem adjust_eq {env : Env} {opts o : MatchOpts} {s : Store} (hs : SoundOpts opts)
    (hz : ZoomFits opts s) (h : env.adjust opts s.zoom = some o) : o = opts.adjustToZoom s.zoom := by
  unfold Env.adjust at h
  split_ifs at h
  · rw [C26_no_overflow hs.optsAt hs.zoom hz.1 hz.2.1 hz.2.2] at h
    exact (Option.some.inj h).symm
  · exact (Option.some.inj h).symm

theorem adjusted_zoom {opts : MatchOpts} {z : ℕ} : (opts.adjustToZoom z).zoom = z := by
  unfold MatchOpts.adjustToZoom
  split_ifs with h
  · exact h
  · rfl

/-- A tile in the adjusted box keeps to the box of the request. -/
theorem adjusted_box {opts : MatchOpts} {s : Store} (hs : SoundOpts opts) (hz : ZoomFits opts s)
    {t : ℕ × ℕ} (ht : ∀ b', (opts.adjustToZoom s.zoom).bbox = some b' → TileInBox b' t) {b : BBox}
    (hb : opts.bbox = some b) : Touches s.zoom t opts.zoom b ∧
      (opts.zoom ≤ s.zoom → Within s.zoom t opts.zoom b) := by
  obtain ⟨hz1, hz2, hz3⟩ := hz
  by_cases hle : opts.zoom ≤ s.zoom
  · obtain ⟨n, hn⟩ := Nat.exists_eq_add_of_le hle
    rw [hn] at ht ⊢
    obtain ⟨b', hb', -, hall⟩ := C26_box_in (o := opts) (n := n) (by omega) (by omega) hb
      (hs.optsAt.2 b hb)
    have hw : Within (opts.zoom + n) t opts.zoom b := fun u v huv =>
      inBox_of_inTile ((hall t).1 (ht b' hb')) (inTile_ancestor huv)
    exact ⟨touches_of_within hw, fun _ => hw⟩
  · refine ⟨?_, fun h => absurd h hle⟩
    obtain ⟨n, hn⟩ := Nat.exists_eq_add_of_le (Nat.le_of_not_le hle)
    obtain ⟨b', hb', -, -, hall⟩ := C26_box_out (o := opts) (z := s.zoom) (n := n) hn (by omega)
      (by omega) hb
    obtain ⟨h1, h2, h3, h4⟩ := hs.box b hb
    obtain ⟨t', ht', rfl⟩ := hall h1 h3 t (ht b' hb')
    refine ⟨_, _, inTile_ancestor (n := n) (inTile_corner _ t'), ?_⟩
    rw [← hn]
    exact inBox_of_inTile ht' (inTile_corner _ t')

/-- The adjusted point. -/
theorem adjusted_point {opts : MatchOpts} {s : Store} (hs : SoundOpts opts) (hz : ZoomFits opts s)
    {p : ℕ × ℕ} (hp : opts.proximity = some p) :
    (opts.adjustToZoom s.zoom).proximity = some (pointAt opts.zoom p s.zoom) := by
  obtain ⟨hz1, hz2, hz3⟩ := hz
  unfold pointAt MatchOpts.adjustToZoom
  by_cases he : opts.zoom = s.zoom
  · rw [if_pos he, if_pos (by omega), hp, he]
    simp
  · rw [if_neg he, hp]
    by_cases hle : s.zoom ≤ opts.zoom
    · obtain ⟨n, hn⟩ := Nat.exists_eq_add_of_le hle
      rw [if_pos hle, hn, Nat.add_sub_cancel_left]
      dsimp only [Option.map_some]
      rw [adjustProximity_out (by omega) (by omega)]
      rfl
    · obtain ⟨n, hn⟩ := Nat.exists_eq_add_of_le (Nat.le_of_not_le hle)
      rw [if_neg hle, hn, Nat.add_sub_cancel_left]
      dsimp only [Option.map_some]
      rw [adjustProximity_in (hs.point p hp) (by omega) (by omega) (by omega)]
      obtain ⟨m, rfl⟩ : ∃ m, n = m + 1 := ⟨n - 1, by omega⟩
      have h1 : 2 ^ (m + 1) / 2 = 2 ^ m := by rw [pow_succ]; omega
      have h2 := Nat.one_le_two_pow (n := m)
      rw [h1, Nat.add_sub_cancel, Nat.add_sub_assoc h2, Nat.add_sub_assoc h2]

theorem pointAt_lt {opts : MatchOpts} {s : Store} (hs : SoundOpts opts) (hz : ZoomFits opts s)
    {p : ℕ × ℕ} (hp : opts.proximity = some p) :
    (pointAt opts.zoom p s.zoom).1 < 2 ^ 16 ∧ (pointAt opts.zoom p s.zoom).2 < 2 ^ 16 := by
  obtain ⟨h1, h2⟩ := hs.point p hp
  have hz16 : 2 ^ opts.zoom ≤ 2 ^ 16 := Nat.pow_le_pow_right (by norm_num) hs.zoom
  obtain ⟨hz1, hz2, hz3⟩ := hz
  unfold pointAt
  split_ifs with h
  · exact ⟨(Nat.div_le_self _ _).trans_lt (by omega), (Nat.div_le_self _ _).trans_lt (by omega)⟩
  · obtain ⟨m, hm⟩ : ∃ m, s.zoom = opts.zoom + (m + 1) := ⟨s.zoom - opts.zoom - 1, by omega⟩
    rw [hm, Nat.add_sub_cancel_left, Nat.add_sub_cancel]
    have e : 2 ^ m < 2 ^ (m + 1) := Nat.pow_lt_pow_right (by norm_num) (by omega)
    have k1 := (scaled_lt (n := m + 1) h1 (by omega) e).2
    have k2 := (scaled_lt (n := m + 1) h2 (by omega) e).2
    exact ⟨by dsimp only; omega, by dsimp only; omega⟩

/-- What the options of a lookup are. -/
theorem lookup_keeps {env : Env} {opts o : MatchOpts} {q : Subquery} {kg : KeyWithId}
    (hs : SoundOpts opts) (hz : ZoomFits opts q.store) (h : lookupOpts env opts q kg = some o) :
    o.zoom = q.store.zoom ∧ o.proximity = (opts.adjustToZoom q.store.zoom).proximity ∧
      ∀ t, (∀ b, o.bbox = some b → TileInBox b t) →
        (∀ b, (opts.adjustToZoom q.store.zoom).bbox = some b → TileInBox b t) ∧
        (kg.nearbyOnly = true → ∀ p, opts.proximity = some p →
          WithinTiles (nearbyTiles q.store.zoom) (pointAt opts.zoom p q.store.zoom) t) := by
  unfold lookupOpts at h
  obtain ⟨o1, h1, h⟩ := Option.bind_eq_some_iff.1 h
  have he := adjust_eq hs hz h1
  subst he
  have hz' := adjusted_zoom (opts := opts) (z := q.store.zoom)
  cases hn : kg.nearbyOnly with
  | false =>
    rw [hn] at h
    cases h
    exact ⟨hz', rfl, fun t ht => ⟨ht, fun h => by cases h⟩⟩
  | true =>
    rw [hn] at h
    cases hp : opts.proximity with
    | none =>
      have hp' : (opts.adjustToZoom q.store.zoom).proximity = none := by
        unfold MatchOpts.adjustToZoom
        split_ifs
        · exact hp
        · rw [hp]; rfl
      have ho : o = opts.adjustToZoom q.store.zoom := by
        cases hc : env.chk with
        | false =>
          rw [hc] at h
          rw [← Option.some.inj h]
          exact C27_no_point hp'
        | true =>
          rw [hc] at h
          dsimp only at h
          unfold MatchOpts.withNearbyOnlyChecked at h
          rw [hp'] at h
          exact (Option.some.inj h).symm
      subst ho
      exact ⟨hz', rfl, fun t ht => ⟨ht, fun _ p h => by cases h⟩⟩
    | some p =>
      have hp' := adjusted_point hs hz hp
      have hz16 : (opts.adjustToZoom q.store.zoom).zoom ≤ 16 := hz'.trans_le hz.1
      by_cases hedge : (pointAt opts.zoom p q.store.zoom).1 + nearbyTiles q.store.zoom < 2 ^ 16 ∧
          (pointAt opts.zoom p q.store.zoom).2 + nearbyTiles q.store.zoom < 2 ^ 16
      · obtain ⟨b', e1, e2, e3⟩ := C27_nearby_square_partial hz16 hp' (by rw [hz']; exact hedge.1)
          (by rw [hz']; exact hedge.2)
        rw [hz'] at e3
        have ho : o = { opts.adjustToZoom q.store.zoom with bbox := some b' } := by
          cases hc : env.chk with
          | false =>
            rw [hc] at h
            rw [← Option.some.inj h, e1]
          | true =>
            rw [hc] at h
            dsimp only at h
            rw [e2] at h
            rw [← Option.some.inj h, e1]
        subst ho
        refine ⟨hz', rfl, fun t ht => ?_⟩
        obtain ⟨f1, f2⟩ := (e3 t).1 (ht b' rfl)
        refine ⟨f2, fun _ p' hp'' => ?_⟩
        cases hp''
        exact f1
      · obtain ⟨hl1, hl2⟩ := pointAt_lt hs hz hp
        obtain ⟨⟨b', e1, e2⟩, e3⟩ := C27_edge_empty_partial hz16 hp' hl1 hl2 (by
          rw [hz']
          omega)
        cases hc : env.chk with
        | true =>
          rw [hc] at h
          dsimp only at h
          rw [e3] at h
          cases h
        | false =>
          rw [hc] at h
          rw [← Option.some.inj h, e1]
          exact ⟨hz', rfl, fun t ht => absurd (ht b' rfl) (e2 t)⟩

end Carmen

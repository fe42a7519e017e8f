import Verif.Model.SpatialReads
import Verif.Lemmas.Spatial

/-! # C24: the filters read existing tiles only -/

namespace Carmen
open Format

theorem readCoord_eq {cs : List Coord} {i : ℕ} (h : i < cs.length) :
    readCoord cs i = some (coordAt cs i) := by
  rw [readCoord, coordAt, List.getElem?_eq_getElem h]; rfl

theorem searchLoopReads_eq (cs : List Coord) (val : ℕ) :
    ∀ fuel size base : ℕ, 0 < size → base + size ≤ cs.length →
      searchLoopReads cs val fuel size base = some (searchLoop cs val fuel size base) ∧
        searchLoop cs val fuel size base < cs.length := by
  intro fuel
  induction fuel with
  | zero => intro size base h0 h; exact ⟨rfl, by unfold searchLoop; omega⟩
  | succ fuel ih =>
    intro size base h0 h
    unfold searchLoopReads searchLoop
    by_cases hs : 1 < size
    · rw [if_pos hs, if_pos hs, readCoord_eq (by omega)]
      simp only [Option.bind_eq_bind, Option.bind_some]
      split_ifs
      · exact ih _ _ (by omega) (by omega)
      · exact ih _ _ (by omega) (by omega)
    · rw [if_neg hs, if_neg hs]
      exact ⟨rfl, by omega⟩

theorem coordSearchReads_eq (cs : List Coord) (val offset : ℕ) :
    coordSearchReads cs val offset = some (coordSearch cs val offset) ∧
      ∀ r, coordSearch cs val offset = some r → r < cs.length := by
  unfold coordSearchReads coordSearch
  by_cases hl : cs.length ≤ offset
  · simp [hl]
  obtain ⟨h1, h2⟩ := searchLoopReads_eq cs val (cs.length - offset) (cs.length - offset) offset
    (by omega) (by omega)
  simp only [if_neg hl, h1, Option.bind_eq_bind, Option.bind_some]
  generalize searchLoop cs val (cs.length - offset) (cs.length - offset) offset = base at *
  by_cases hb : base = cs.length - 1
  · simp only [if_pos hb]
    exact ⟨trivial, by rintro r ⟨⟩; exact h2⟩
  simp only [if_neg hb, readCoord_eq h2, Option.bind_some]
  refine ⟨by split_ifs <;> rfl, ?_⟩
  intro r hr
  split_ifs at hr <;> cases hr <;> omega

theorem bboxRangeReads_eq (cs : List Coord) (b : BBox) :
    bboxRangeReads cs b = some (bboxRange cs b) ∧
      ∀ r, bboxRange cs b = some r → r.2 < cs.length := by
  unfold bboxRangeReads bboxRange
  by_cases hl : cs.length = 0
  · simp [hl]
  simp only [if_neg hl, readCoord_eq (show 0 < cs.length by omega),
    readCoord_eq (show cs.length - 1 < cs.length by omega), Option.bind_eq_bind, Option.bind_some]
  by_cases h1 : coordAt cs 0 < interleave b.minX b.minY
  · simp [h1]
  by_cases h2 : interleave b.maxX b.maxY < coordAt cs (cs.length - 1)
  · simp [h1, h2]
  simp only [if_neg h1, if_neg h2, (coordSearchReads_eq cs _ _).1, Option.bind_some]
  rcases hs : coordSearch cs (interleave b.maxX b.maxY) 0 with _ | start
  · simp
  simp only
  rcases ht : coordSearch cs (interleave b.minX b.minY) start with _ | stop
  · simp
  have := (coordSearchReads_eq cs _ _).2 _ ht
  refine ⟨rfl, ?_⟩
  rintro r ⟨⟩
  simp only
  split_ifs <;> omega

theorem readAll_eq (cs : List Coord) (keep : Coord → Bool) (is : List ℕ)
    (h : ∀ i ∈ is, i < cs.length) :
    readAll cs keep is = some (is.filterMap fun i => (cs[i]?).filter keep) := by
  unfold readAll
  have : ∀ is : List ℕ, (∀ i ∈ is, i < cs.length) →
      ∃ l, (is.mapM fun i => cs[i]?) = some l ∧
        l.filter keep = is.filterMap fun i => (cs[i]?).filter keep := by
    intro is
    induction is with
    | nil => intro _; exact ⟨[], rfl, rfl⟩
    | cons i t ih =>
      intro h
      obtain ⟨l, h1, h2⟩ := ih fun j hj => h j (List.mem_cons_of_mem _ hj)
      have hi := h i List.mem_cons_self
      refine ⟨cs[i] :: l, ?_, ?_⟩
      · simp [List.mapM_cons, List.getElem?_eq_getElem hi, h1]
      · rw [List.filter_cons, List.filterMap_cons, List.getElem?_eq_getElem hi, h2]
        rcases hk : keep cs[i] <;> simp [Option.filter, hk]
  obtain ⟨l, h1, h2⟩ := this is h
  rw [h1, Option.map_some, h2]

theorem mem_rangeList {lo hi i : ℕ} : i ∈ rangeList lo hi ↔ lo ≤ i ∧ i < hi := by
  unfold rangeList
  rw [List.mem_range'_1]
  omega

/-- C24: whatever the tiles of a record, in whatever order, and whatever the box and the point, the
three filters and the search they use read existing tiles only, and give what `selectCoords` says. -/
theorem C24_reads_exist (cs : List Coord) (b : BBox) (p : ℕ × ℕ) :
    bboxFilterReads cs b = some (bboxFilter cs b) ∧
    proximityReads cs p = some (proximity cs p) ∧
    bboxProximityReads cs b p = some (bboxProximity cs b p) := by
  refine ⟨?_, ?_, ?_⟩
  · unfold bboxFilterReads bboxFilter
    obtain ⟨h1, h2⟩ := bboxRangeReads_eq cs b
    by_cases hl : cs.length = 0
    · simp [hl]
    simp only [if_neg hl, h1, Option.bind_eq_bind, Option.bind_some]
    rcases hr : bboxRange cs b with _ | r
    · rfl
    simp only [Option.map_some]
    rw [readAll_eq _ _ _ fun i hi => by
      have := mem_rangeList.1 hi; have := h2 r hr; omega]
    rfl
  · unfold proximityReads proximity
    by_cases hl : cs.length = 0
    · simp [hl]
    obtain ⟨h1, h2⟩ := coordSearchReads_eq cs (interleave p.1 p.2) 0
    simp only [if_neg hl, h1, Option.bind_eq_bind, Option.bind_some]
    rcases hr : coordSearch cs (interleave p.1 p.2) 0 with _ | mid
    · rfl
    simp only [Option.map_some]
    rw [readAll_eq _ _ _ fun i hi => by
        have := mem_rangeList.1 (List.mem_reverse.1 hi); have := h2 mid hr; omega,
      readAll_eq _ _ _ fun i hi => (mem_rangeList.1 hi).2]
    simp only [option_filter_true, Option.bind_some]
  · unfold bboxProximityReads bboxProximity
    obtain ⟨h1, h2⟩ := bboxRangeReads_eq cs b
    simp only [h1, Option.bind_eq_bind, Option.bind_some]
    rcases hr : bboxRange cs b with _ | r
    · rfl
    simp only
    by_cases hl : cs.length = 0
    · simp [hl]
    obtain ⟨h3, h4⟩ := coordSearchReads_eq cs (interleave p.1 p.2) 0
    simp only [if_neg hl, h3, Option.bind_some]
    rcases hm : coordSearch cs (interleave p.1 p.2) 0 with _ | mid
    · rfl
    simp only [Option.map_some]
    rw [readAll_eq _ _ _ fun i hi => by
        have := mem_rangeList.1 (List.mem_reverse.1 hi); have := h4 mid hm; omega,
      readAll_eq _ _ _ fun i hi => by
        have := mem_rangeList.1 hi; have := h2 r hr; omega]
    rfl

/-- The case of four tiles, a box around two of them and a point beside it. -/
example : bboxProximityReads [⟨12, 0⟩, ⟨9, 4⟩, ⟨3, 8⟩, ⟨1, 12⟩] ⟨0, 0, 1, 1⟩ (3, 3) =
    some (some [⟨3, 8⟩, ⟨1, 12⟩]) := by decide +kernel

end Carmen

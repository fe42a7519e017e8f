import Verif.Model.Spatial
import Verif.Lemmas.Bytes

/-!
# Lemmas on the tile search and the tile filters
-/

namespace Carmen
open Format

/-- Tile vectors are stored in strictly descending z-order. -/
def Descending (cs : List Coord) : Prop := cs.Pairwise (fun a b => b.coord < a.coord)

instance (cs : List Coord) : Decidable (Descending cs) := by
  unfold Descending; infer_instance

theorem coordAt_lt {cs : List Coord} (h : Descending cs) {i j : ℕ} (hij : i < j)
    (hj : j < cs.length) : coordAt cs j < coordAt cs i := by
  have := List.pairwise_iff_getElem.1 h i j (by omega) hj hij
  simpa [coordAt, List.getElem?_eq_getElem hj, List.getElem?_eq_getElem (show i < cs.length by omega)]
    using this

theorem coordAt_eq {cs : List Coord} {i : ℕ} (h : i < cs.length) :
    coordAt cs i = (cs[i]).coord := by
  simp [coordAt, List.getElem?_eq_getElem h]

/-- Invariant of the binary search loop. -/
theorem searchLoop_spec {cs : List Coord} {val offset : ℕ} (h : Descending cs) :
    ∀ fuel size base : ℕ, size ≤ fuel → 0 < size → offset ≤ base → base + size ≤ cs.length →
      (base = offset ∨ val ≤ coordAt cs base) →
      (∀ i, base + size ≤ i → i < cs.length → coordAt cs i < val) →
      offset ≤ searchLoop cs val fuel size base ∧
      searchLoop cs val fuel size base < cs.length ∧
      (searchLoop cs val fuel size base = offset ∨
        val ≤ coordAt cs (searchLoop cs val fuel size base)) ∧
      ∀ i, searchLoop cs val fuel size base < i → i < cs.length → coordAt cs i < val := by
  intro fuel
  induction fuel with
  | zero => intro size base h1 h2; omega
  | succ fuel ih =>
    intro size base h1 h2 h3 h4 h5 h6
    unfold searchLoop
    by_cases hs : 1 < size
    · rw [if_pos hs]
      simp only
      by_cases hc : coordAt cs (base + size / 2) < val
      · rw [if_pos hc]
        refine ih _ _ (by omega) (by omega) h3 (by omega) h5 ?_
        intro i hi hi'
        rcases Nat.lt_or_ge (base + size / 2) i with h | h'
        · exact lt_trans (coordAt_lt (by assumption) h hi') hc
        · have : i = base + size / 2 := by omega
          rw [this]; exact hc
      · rw [if_neg hc]
        refine ih _ _ (by omega) (by omega) (by omega) (by omega) (Or.inr (by omega)) ?_
        intro i hi hi'
        exact h6 i (by omega) hi'
    · rw [if_neg hs]
      exact ⟨h3, by omega, h5, fun i hi => h6 i (by omega)⟩

/-- `coord_binary_search` finds the first index from `offset` on whose tile is at most
`val`, or the last index when there is none. -/
theorem coordSearch_spec {cs : List Coord} {val offset r : ℕ} (h : Descending cs)
    (hr : coordSearch cs val offset = some r) :
    offset ≤ r ∧ r < cs.length ∧ (∀ i, offset ≤ i → i < r → val < coordAt cs i) ∧
      (coordAt cs r ≤ val ∨ r = cs.length - 1) := by
  unfold coordSearch at hr
  simp only at hr
  by_cases hl : cs.length ≤ offset
  · rw [if_pos hl] at hr; cases hr
  rw [if_neg hl] at hr
  obtain ⟨h1, h2, h3, h4⟩ := searchLoop_spec (val := val) (offset := offset) h
    (cs.length - offset) (cs.length - offset) offset le_rfl (by omega) le_rfl (by omega)
    (Or.inl rfl) (by intro i hi hi'; omega)
  generalize searchLoop cs val (cs.length - offset) (cs.length - offset) offset = base at *
  have hbelow : ∀ i, offset ≤ i → i < base → val < coordAt cs i := by
    intro i hi hib
    rcases h3 with h3 | h3
    · omega
    · exact lt_of_le_of_lt h3 (coordAt_lt h hib h2)
  by_cases hb : base = cs.length - 1
  · rw [if_pos hb] at hr
    cases hr
    exact ⟨h1, h2, hbelow, Or.inr hb⟩
  rw [if_neg hb] at hr
  by_cases he : coordAt cs base = val
  · rw [if_pos he] at hr
    cases hr
    exact ⟨h1, h2, hbelow, Or.inl he.le⟩
  rw [if_neg he] at hr
  by_cases hv : val < coordAt cs base
  · rw [if_pos hv] at hr
    cases hr
    refine ⟨by omega, by omega, ?_, Or.inl (h4 (base + 1) (by omega) (by omega)).le⟩
    intro i hi hib
    rcases Nat.lt_or_ge i base with h' | h'
    · exact hbelow i hi h'
    · have : i = base := by omega
      rw [this]; exact hv
  · rw [if_neg hv] at hr
    cases hr
    exact ⟨h1, h2, hbelow, Or.inl (by simp only [Nat.add_zero]; omega)⟩

theorem coordSearch_isSome {cs : List Coord} {val offset : ℕ} (h : offset < cs.length) :
    ∃ r, coordSearch cs val offset = some r := by
  unfold coordSearch
  simp only
  rw [if_neg (by omega)]
  split
  · exact ⟨_, rfl⟩
  · split
    · exact ⟨_, rfl⟩
    · exact ⟨_, rfl⟩

/-- The index found by a search is an index of the vector. -/
theorem search_lt {cs : List Coord} {val offset r : ℕ} (h : Descending cs)
    (hr : coordSearch cs val offset = some r) : r < cs.length := (coordSearch_spec h hr).2.1

/-- Outside the index range found no tile lies between the corners of the box. -/
theorem bboxRange_none {cs : List Coord} {b : BBox} (h : Descending cs)
    (hr : bboxRange cs b = none) :
    ∀ c ∈ cs, c.coord < interleave b.minX b.minY ∨ interleave b.maxX b.maxY < c.coord := by
  intro c hc
  obtain ⟨i, hi, rfl⟩ := List.mem_iff_getElem.1 hc
  rw [← coordAt_eq hi]
  unfold bboxRange at hr
  simp only at hr
  rw [if_neg (by omega)] at hr
  by_cases h1 : coordAt cs 0 < interleave b.minX b.minY
  · left
    rcases Nat.eq_zero_or_pos i with rfl | hp
    · exact h1
    · exact lt_trans (coordAt_lt h hp hi) h1
  rw [if_neg h1] at hr
  by_cases h2 : interleave b.maxX b.maxY < coordAt cs (cs.length - 1)
  · right
    rcases Nat.lt_or_ge i (cs.length - 1) with hp | hp
    · exact lt_trans h2 (coordAt_lt h hp (by omega))
    · have : i = cs.length - 1 := by omega
      rw [this]; exact h2
  rw [if_neg h2] at hr
  obtain ⟨s, hs⟩ := coordSearch_isSome (val := interleave b.maxX b.maxY) (offset := 0)
    (show 0 < cs.length by omega)
  obtain ⟨e, he⟩ := coordSearch_isSome (val := interleave b.minX b.minY) (offset := s)
    (search_lt h hs)
  rw [hs] at hr
  simp only [he] at hr
  cases hr

theorem bboxRange_some {cs : List Coord} {b : BBox} (h : Descending cs) {r : ℕ × ℕ}
    (hr : bboxRange cs b = some r) :
    r.1 ≤ r.2 ∧ r.2 < cs.length ∧
    ∀ i, i < cs.length → interleave b.minX b.minY ≤ coordAt cs i →
      coordAt cs i ≤ interleave b.maxX b.maxY → r.1 ≤ i ∧ i ≤ r.2 := by
  unfold bboxRange at hr
  simp only at hr
  by_cases h0 : cs.length = 0
  · rw [if_pos h0] at hr; cases hr
  rw [if_neg h0] at hr
  by_cases h1 : coordAt cs 0 < interleave b.minX b.minY
  · rw [if_pos h1] at hr; cases hr
  rw [if_neg h1] at hr
  by_cases h2 : interleave b.maxX b.maxY < coordAt cs (cs.length - 1)
  · rw [if_pos h2] at hr; cases hr
  rw [if_neg h2] at hr
  cases hs : coordSearch cs (interleave b.maxX b.maxY) 0 with
  | none => rw [hs] at hr; cases hr
  | some s =>
    rw [hs] at hr
    simp only at hr
    cases he : coordSearch cs (interleave b.minX b.minY) s with
    | none => rw [he] at hr; cases hr
    | some e =>
      rw [he] at hr
      simp only [Option.some.injEq] at hr
      obtain ⟨a1, a2, a3, a4⟩ := coordSearch_spec h hs
      obtain ⟨b1, b2, b3, b4⟩ := coordSearch_spec h he
      rw [if_neg (by omega)] at hr
      subst hr
      refine ⟨b1, b2, ?_⟩
      intro i hi hlo hhi
      refine ⟨?_, ?_⟩
      · by_contra hc
        exact absurd (a3 i (by omega) (by simpa using hc)) (by omega)
      · show i ≤ e
        by_contra hc
        rw [Nat.not_le] at hc
        have hee := coordAt_lt h hc hi
        rcases b4 with b4 | b4
        · omega
        · omega

/-- The debug assertions of `bbox_range` hold for a box with ordered corners. -/
theorem bboxRange_asserts {cs : List Coord} {b : BBox} (h : Descending cs)
    (hx : b.minX ≤ b.maxX) (hy : b.minY ≤ b.maxY) (hx' : b.maxX < 2 ^ 16)
    (hy' : b.maxY < 2 ^ 16) :
    interleave b.minX b.minY ≤ interleave b.maxX b.maxY ∧
    coordAt cs (cs.length - 1) ≤ coordAt cs 0 ∧
    ∀ r, bboxRange cs b = some r → r.1 ≤ r.2 := by
  refine ⟨interleave_mono hx hy hx' hy', ?_, fun r hr => (bboxRange_some h hr).1⟩
  rcases Nat.lt_or_ge 1 cs.length with h1 | h1
  · exact (coordAt_lt h (show 0 < cs.length - 1 by omega) (by omega)).le
  · have : cs.length - 1 = 0 := by omega
    rw [this]

/-- A tile inside a box lies between the corners of the box. -/
theorem inBox_bounds {b : BBox} (hx' : b.maxX < 2 ^ 16) (hy' : b.maxY < 2 ^ 16) {c : ℕ}
    (hc : c < 2 ^ 32) (h : inBox b c = true) :
    interleave b.minX b.minY ≤ c ∧ c ≤ interleave b.maxX b.maxY := by
  unfold inBox at h
  simp only [Bool.and_eq_true, decide_eq_true_eq] at h
  obtain ⟨⟨⟨h1, h2⟩, h3⟩, h4⟩ := h
  obtain ⟨d1, d2⟩ := deinterleave_lt c
  rw [← interleave_deinterleave hc]
  exact ⟨interleave_mono h1 h3 d1 d2, interleave_mono h2 h4 hx' hy'⟩

/-! ## Index ranges -/

theorem filterMap_range' (cs : List Coord) (p : Coord → Bool) (lo n : ℕ)
    (h : lo + n ≤ cs.length) :
    (List.range' lo n).filterMap (fun i => (cs[i]?).filter p) =
      ((cs.drop lo).take n).filter p := by
  induction n generalizing lo with
  | zero => simp
  | succ n ih =>
    have hlt : lo < cs.length := by omega
    rw [List.range'_succ, List.filterMap_cons, ih (lo + 1) (by omega),
      List.drop_eq_getElem_cons hlt, List.take_succ_cons, List.getElem?_eq_getElem hlt]
    by_cases hp : p cs[lo]
    · simp [Option.filter, hp]
    · simp [Option.filter, hp]

theorem rangeList_filterMap (cs : List Coord) (p : Coord → Bool) {lo hi : ℕ}
    (h : hi ≤ cs.length) :
    (rangeList lo hi).filterMap (fun i => (cs[i]?).filter p) =
      ((cs.take hi).drop lo).filter p := by
  unfold rangeList
  rcases Nat.le_total lo hi with h' | h'
  · rw [filterMap_range' cs p lo (hi - lo) (by omega), List.drop_take]
  · rw [show hi - lo = 0 by omega]
    simp only [List.range'_zero, List.filterMap_nil]
    rw [List.drop_eq_nil_of_le (by simp only [List.length_take]; omega), List.filter_nil]

theorem option_filter_true {α : Type} (x : Option α) : x.filter (fun _ => true) = x := by
  cases x <;> rfl

theorem rangeList_getElem? (cs : List Coord) {lo hi : ℕ} (h : hi ≤ cs.length) :
    (rangeList lo hi).filterMap (fun i => cs[i]?) = (cs.take hi).drop lo := by
  have := rangeList_filterMap cs (fun _ => true) (lo := lo) h
  simpa only [option_filter_true, List.filter_true] using this

/-- Filtering out everything outside an index range changes nothing if the filter does. -/
theorem filter_range {cs : List Coord} {p : Coord → Bool} {lo hi : ℕ}
    (h : ∀ i (hi' : i < cs.length), p cs[i] = true → lo ≤ i ∧ i < hi) :
    ((cs.take hi).drop lo).filter p = cs.filter p := by
  have h1 : (cs.drop hi).filter p = [] := by
    rw [List.filter_eq_nil_iff]
    intro a ha hp
    obtain ⟨i, hi', rfl⟩ := List.mem_iff_getElem.1 ha
    rw [List.getElem_drop] at hp
    simp only [List.length_drop] at hi'
    have := (h (hi + i) (by omega) hp).2
    omega
  have h2 : ((cs.take hi).take lo).filter p = [] := by
    rw [List.filter_eq_nil_iff]
    intro a ha hp
    obtain ⟨i, hi', rfl⟩ := List.mem_iff_getElem.1 ha
    rw [List.getElem_take, List.getElem_take] at hp
    simp only [List.length_take] at hi'
    have := (h i (by omega) hp).1
    omega
  calc ((cs.take hi).drop lo).filter p
      = ((cs.take hi).take lo).filter p ++ ((cs.take hi).drop lo).filter p := by
        rw [h2, List.nil_append]
    _ = (cs.take hi).filter p := by rw [← List.filter_append, List.take_append_drop]
    _ = (cs.take hi).filter p ++ (cs.drop hi).filter p := by rw [h1, List.append_nil]
    _ = cs.filter p := by rw [← List.filter_append, List.take_append_drop]

/-- `bbox_filter` keeps exactly the tiles in the box, in order. -/
theorem bboxFilter_eq {cs : List Coord} {b : BBox} (h : Descending cs)
    (hc : ∀ c ∈ cs, c.coord < 2 ^ 32) (hx : b.maxX < 2 ^ 16) (hy : b.maxY < 2 ^ 16) :
    (bboxFilter cs b).getD [] = cs.filter (fun c => inBox b c.coord) := by
  unfold bboxFilter
  by_cases h0 : cs.length = 0
  · rw [if_pos h0]
    rw [List.length_eq_zero_iff.1 h0]; rfl
  rw [if_neg h0]
  cases hr : bboxRange cs b with
  | none =>
    simp only [Option.map_none, Option.getD_none]
    symm
    rw [List.filter_eq_nil_iff]
    intro c hcc hin
    obtain ⟨h1, h2⟩ := inBox_bounds hx hy (hc c hcc) hin
    rcases bboxRange_none h hr c hcc with h3 | h3 <;> omega
  | some r =>
    simp only [Option.map_some, Option.getD_some]
    obtain ⟨h1, h2, h3⟩ := bboxRange_some h hr
    show (rangeList r.1 (r.2 + 1)).filterMap
      (fun i => (cs[i]?).filter (fun c => inBox b c.coord)) = _
    rw [rangeList_filterMap cs _ (by omega)]
    refine filter_range ?_
    intro i hi hp
    have hcc := hc cs[i] (List.getElem_mem hi)
    obtain ⟨g1, g2⟩ := inBox_bounds hx hy hcc hp
    rw [← coordAt_eq hi] at g1 g2
    have := h3 i hi g1 g2
    omega

/-! ## Merging -/

theorem mergeBy_eq {α : Type} (f : α → α → Bool) (xs : List α) :
    ∀ ys, mergeBy f xs ys = List.merge xs ys f := by
  induction xs with
  | nil => intro ys; simp [mergeBy]
  | cons x xs ih =>
    intro ys
    rw [mergeBy]
    induction ys with
    | nil => simp [mergeBy.go]
    | cons y ys ihy =>
      rw [mergeBy.go, List.cons_merge_cons, ih, ihy]

theorem mergeBy_perm {α : Type} (f : α → α → Bool) (xs ys : List α) :
    (mergeBy f xs ys).Perm (xs ++ ys) := by
  rw [mergeBy_eq]; exact List.merge_perm_append _

theorem mergeBy_pairwise {α : Type} (d : α → ℕ) :
    ∀ {xs ys : List α}, xs.Pairwise (fun a b => d a ≤ d b) →
      ys.Pairwise (fun a b => d a ≤ d b) →
      (mergeBy (fun a b => decide (d a < d b)) xs ys).Pairwise (fun a b => d a ≤ d b) := by
  simp only [mergeBy_eq]
  intro xs
  induction xs with
  | nil => intro ys _ hy; simpa using hy
  | cons x xs ihx =>
    intro ys
    induction ys with
    | nil => intro hx _; simpa using hx
    | cons y ys ihy =>
      intro hx hy
      rw [List.cons_merge_cons]
      by_cases hc : d x < d y
      · rw [if_pos (by simpa using hc), List.pairwise_cons]
        refine ⟨?_, ihx (List.pairwise_cons.1 hx).2 hy⟩
        intro a ha
        rw [(List.merge_perm_append _).mem_iff, List.mem_append] at ha
        rcases ha with ha | ha
        · exact (List.pairwise_cons.1 hx).1 a ha
        · rcases List.mem_cons.1 ha with rfl | ha
          · exact hc.le
          · exact hc.le.trans ((List.pairwise_cons.1 hy).1 a ha)
      · rw [if_neg (by simpa using hc), List.pairwise_cons]
        refine ⟨?_, ihy hx (List.pairwise_cons.1 hy).2⟩
        intro a ha
        rw [(List.merge_perm_append _).mem_iff, List.mem_append] at ha
        rcases ha with ha | ha
        · rcases List.mem_cons.1 ha with rfl | ha
          · omega
          · have := (List.pairwise_cons.1 hx).1 a ha
            omega
        · exact (List.pairwise_cons.1 hy).1 a ha

theorem zDist_of_le {pt c : ℕ} (h : c ≤ pt) : zDist pt c = pt - c := by
  unfold zDist; omega

theorem zDist_of_ge {pt c : ℕ} (h : pt ≤ c) : zDist pt c = c - pt := by
  unfold zDist; omega

/-- Going away from the point the distance does not shrink. -/
theorem head_pairwise {cs : List Coord} {pt mid lo : ℕ} (h : Descending cs)
    (hmid : coordSearch cs pt 0 = some mid) (p : Coord → Bool) :
    ((((cs.take mid).drop lo).filter p).reverse).Pairwise
      (fun a b => zDist pt a.coord ≤ zDist pt b.coord) := by
  obtain ⟨_, h2, h3, _⟩ := coordSearch_spec h hmid
  rw [List.pairwise_reverse]
  have hd : (cs.take mid).Pairwise (fun a b => b.coord < a.coord) :=
    List.Pairwise.sublist (List.take_sublist _ _) h
  have : (cs.take mid).Pairwise (fun a b => zDist pt b.coord ≤ zDist pt a.coord) := by
    refine hd.imp_of_mem ?_
    intro a b ha hb hlt
    have hb' : pt < b.coord := by
      obtain ⟨i, hi, rfl⟩ := List.mem_iff_getElem.1 hb
      rw [List.getElem_take]
      simp only [List.length_take] at hi
      rw [← coordAt_eq]
      exact h3 i (by omega) (by omega)
    rw [zDist_of_ge hb'.le, zDist_of_ge (by omega)]
    omega
  exact (this.sublist (List.drop_sublist _ _)).filter _

theorem tail_pairwise {cs : List Coord} {pt mid hi : ℕ} (h : Descending cs)
    (hmid : coordSearch cs pt 0 = some mid) (p : Coord → Bool) :
    (((cs.take hi).drop mid).filter p).Pairwise
      (fun a b => zDist pt a.coord ≤ zDist pt b.coord) := by
  obtain ⟨_, h2, _, h4⟩ := coordSearch_spec h hmid
  refine List.Pairwise.filter _ ?_
  refine List.Pairwise.sublist ((List.take_sublist _ _).drop mid) ?_
  rcases h4 with h4 | h4
  · have hd : (cs.drop mid).Pairwise (fun a b => b.coord < a.coord) :=
      List.Pairwise.sublist (List.drop_sublist _ _) h
    refine hd.imp_of_mem ?_
    intro a b ha hb hlt
    have ha' : a.coord ≤ pt := by
      obtain ⟨i, hi, rfl⟩ := List.mem_iff_getElem.1 ha
      rw [List.getElem_drop]
      simp only [List.length_drop] at hi
      rw [← coordAt_eq]
      rcases Nat.eq_zero_or_pos i with rfl | hp
      · exact h4
      · exact (coordAt_lt h (show mid < mid + i by omega) (by omega)).le.trans h4
    rw [zDist_of_le ha', zDist_of_le (by omega)]
    omega
  · have : (cs.drop mid).length ≤ 1 := by simp only [List.length_drop]; omega
    match hq : cs.drop mid with
    | [] => exact List.Pairwise.nil
    | [a] => exact List.pairwise_singleton _ _
    | a :: b :: t => rw [hq] at this; simp at this

/-- `proximity` delivers every tile once, nearest on the curve first. -/
theorem proximity_spec {cs : List Coord} {p : ℕ × ℕ} (h : Descending cs) :
    ((proximity cs p).getD []).Perm cs ∧
    ((proximity cs p).getD []).Pairwise
      (fun a b => zDist (interleave p.1 p.2) a.coord ≤ zDist (interleave p.1 p.2) b.coord) := by
  unfold proximity
  by_cases h0 : cs.length = 0
  · simp only [if_pos h0]
    rw [List.length_eq_zero_iff.1 h0]
    simp
  simp only [if_neg h0]
  obtain ⟨mid, hmid⟩ := coordSearch_isSome (val := interleave p.1 p.2) (offset := 0)
    (show 0 < cs.length by omega)
  have hlt := search_lt h hmid
  rw [hmid]
  simp only [Option.map_some, Option.getD_some, List.filterMap_reverse]
  rw [rangeList_getElem? cs (by omega), rangeList_getElem? cs le_rfl]
  refine ⟨?_, ?_⟩
  · refine (mergeBy_perm _ _ _).trans ?_
    rw [List.drop_zero, List.take_length]
    refine ((List.reverse_perm _).append_right _).trans ?_
    rw [List.take_append_drop]
  · refine mergeBy_pairwise (fun c : Coord => zDist (interleave p.1 p.2) c.coord) ?_ ?_
    · have := head_pairwise (lo := 0) h hmid (fun _ => true)
      simpa only [List.filter_true] using this
    · have := tail_pairwise (hi := cs.length) h hmid (fun _ => true)
      simpa only [List.filter_true] using this

/-- `bbox_proximity_filter` delivers exactly the tiles in the box, nearest first. -/
theorem bboxProximity_spec {cs : List Coord} {b : BBox} {p : ℕ × ℕ} (h : Descending cs)
    (hc : ∀ c ∈ cs, c.coord < 2 ^ 32) (hx : b.maxX < 2 ^ 16) (hy : b.maxY < 2 ^ 16) :
    ((bboxProximity cs b p).getD []).Perm (cs.filter (fun c => inBox b c.coord)) ∧
    ((bboxProximity cs b p).getD []).Pairwise
      (fun a b => zDist (interleave p.1 p.2) a.coord ≤ zDist (interleave p.1 p.2) b.coord) := by
  unfold bboxProximity
  cases hr : bboxRange cs b with
  | none =>
    simp only [Option.getD_none]
    refine ⟨?_, List.Pairwise.nil⟩
    have : cs.filter (fun c => inBox b c.coord) = [] := by
      rw [List.filter_eq_nil_iff]
      intro c hcc hin
      obtain ⟨h1, h2⟩ := inBox_bounds hx hy (hc c hcc) hin
      rcases bboxRange_none h hr c hcc with h3 | h3 <;> omega
    rw [this]
  | some r =>
    simp only
    obtain ⟨r1, r2, r3⟩ := bboxRange_some h hr
    rw [if_neg (by omega)]
    obtain ⟨mid, hmid⟩ := coordSearch_isSome (val := interleave p.1 p.2) (offset := 0)
      (show 0 < cs.length by omega)
    have hlt := search_lt h hmid
    rw [hmid]
    simp only [Option.map_some, Option.getD_some, List.filterMap_reverse]
    have e1 : (rangeList r.1 mid).filterMap (filteredGet cs b) =
        ((cs.take mid).drop r.1).filter (fun c => inBox b c.coord) :=
      rangeList_filterMap cs _ (by omega)
    have e2 : (rangeList mid (r.2 + 1)).filterMap (filteredGet cs b) =
        ((cs.take (r.2 + 1)).drop mid).filter (fun c => inBox b c.coord) :=
      rangeList_filterMap cs _ (by omega)
    rw [e1, e2]
    refine ⟨?_, mergeBy_pairwise (fun c : Coord => zDist (interleave p.1 p.2) c.coord)
      (head_pairwise h hmid _) (tail_pairwise h hmid _)⟩
    refine (mergeBy_perm _ _ _).trans ?_
    refine ((List.reverse_perm _).append_right _).trans ?_
    have hin : ∀ i (hi' : i < cs.length), inBox b cs[i].coord = true → r.1 ≤ i ∧ i ≤ r.2 := by
      intro i hi hp
      obtain ⟨g1, g2⟩ := inBox_bounds hx hy (hc cs[i] (List.getElem_mem hi)) hp
      rw [← coordAt_eq hi] at g1 g2
      exact r3 i hi g1 g2
    have hh : ((cs.take mid).drop r.1).filter (fun c => inBox b c.coord) =
        (cs.take mid).filter (fun c => inBox b c.coord) := by
      have := filter_range (cs := cs.take mid) (p := fun c => inBox b c.coord) (lo := r.1)
        (hi := mid) (by
          intro i hi' hp
          rw [List.getElem_take] at hp
          simp only [List.length_take] at hi'
          exact ⟨(hin i (by omega) hp).1, by omega⟩)
      rwa [List.take_take, min_self] at this
    have ht : ((cs.take (r.2 + 1)).drop mid).filter (fun c => inBox b c.coord) =
        (cs.drop mid).filter (fun c => inBox b c.coord) := by
      rw [List.drop_take]
      have := filter_range (cs := cs.drop mid) (p := fun c => inBox b c.coord) (lo := 0)
        (hi := r.2 + 1 - mid) (by
          intro i hi' hp
          rw [List.getElem_drop] at hp
          simp only [List.length_drop] at hi'
          have := (hin (mid + i) (by omega) hp).2
          omega)
      rwa [List.drop_zero] at this
    rw [hh, ht, ← List.filter_append, List.take_append_drop]

end Carmen

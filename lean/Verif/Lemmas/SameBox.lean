import Verif.Lemmas.QueryExact
import Verif.Lemmas.Ground
import Verif.Spec.SameBox

/-!
# The box of a query is a filter
-/

namespace Carmen
open Format Spec Builder

section
variable {α : Type} {f : α → α → Bool}

theorem mergeBy_nil_right : ∀ xs : List α, mergeBy f xs [] = xs
  | [] => rfl
  | _ :: _ => rfl

theorem mergeBy_cons (x y : α) (xs ys : List α) : mergeBy f (x :: xs) (y :: ys) =
    if f x y then x :: mergeBy f xs (y :: ys) else y :: mergeBy f (x :: xs) ys := rfl

theorem mergeBy_right {xs : List α} {y : α} (h : ∀ z ∈ xs, f z y = false) (ys : List α) :
    mergeBy f xs (y :: ys) = y :: mergeBy f xs ys := by
  cases xs with
  | nil => rfl
  | cons x t => rw [mergeBy_cons, h x List.mem_cons_self]; rfl

theorem mergeBy_left {ys : List α} {x : α} (h : ∀ w ∈ ys, f x w = true) (xs : List α) :
    mergeBy f (x :: xs) ys = x :: mergeBy f xs ys := by
  cases ys with
  | nil => rw [mergeBy_nil_right, mergeBy_nil_right]
  | cons y t => rw [mergeBy_cons, h y List.mem_cons_self]; rfl

end

/-- Leaving items out of a merge of sorted lists is merging what is left of them. -/
theorem filter_mergeBy {α : Type} (d : α → ℕ) (P : α → Bool) :
    ∀ xs ys : List α, xs.Pairwise (fun a b => d a ≤ d b) → ys.Pairwise (fun a b => d a ≤ d b) →
      (mergeBy (fun a b => decide (d a < d b)) xs ys).filter P =
        mergeBy (fun a b => decide (d a < d b)) (xs.filter P) (ys.filter P) := by
  intro xs
  induction xs with
  | nil => intro ys _ _; rfl
  | cons x xs ih =>
    intro ys
    induction ys with
    | nil => intro _ _; rw [List.filter_nil, mergeBy_nil_right, mergeBy_nil_right]
    | cons y ys ihy =>
      intro hx hy
      obtain ⟨hx1, hx2⟩ := List.pairwise_cons.1 hx
      obtain ⟨hy1, hy2⟩ := List.pairwise_cons.1 hy
      rw [mergeBy_cons]
      by_cases hf : d x < d y
      · rw [if_pos (by simpa using hf)]
        have hw : ∀ w ∈ (y :: ys).filter P, decide (d x < d w) = true := by
          intro w hw
          have := (List.mem_filter.1 hw).1
          rw [decide_eq_true_iff]
          rcases List.mem_cons.1 this with rfl | h
          · exact hf
          · exact lt_of_lt_of_le hf (hy1 w h)
        by_cases hp : P x = true
        · rw [List.filter_cons_of_pos hp, List.filter_cons_of_pos hp,
            mergeBy_left hw, ih _ hx2 hy]
        · rw [List.filter_cons_of_neg hp, List.filter_cons_of_neg hp, ih _ hx2 hy]
      · rw [if_neg (by simpa using hf)]
        have hw : ∀ z ∈ (x :: xs).filter P, decide (d z < d y) = false := by
          intro z hz
          have := (List.mem_filter.1 hz).1
          rw [decide_eq_false_iff_not]
          rcases List.mem_cons.1 this with rfl | h
          · exact hf
          · have := hx1 z h; omega
        by_cases hp : P y = true
        · rw [List.filter_cons_of_pos (l := ys) hp, List.filter_cons_of_pos hp,
            mergeBy_right hw, ihy hx hy2]
        · rw [List.filter_cons_of_neg (l := ys) hp, List.filter_cons_of_neg hp, ihy hx hy2]

/-- With a box: the tiles that come without it, but for those outside. -/
theorem bboxProximity_eq {cs : List Coord} {b : BBox} {p : ℕ × ℕ} (h : Descending cs)
    (hc : ∀ c ∈ cs, c.coord < 2 ^ 32) (hx : b.maxX < 2 ^ 16) (hy : b.maxY < 2 ^ 16) :
    (bboxProximity cs b p).getD [] =
      ((proximity cs p).getD []).filter (fun c => inBox b c.coord) := by
  cases hr : bboxRange cs b with
  | none =>
    have h0 : (bboxProximity cs b p).getD [] = [] := by unfold bboxProximity; rw [hr]; rfl
    rw [h0]
    symm
    rw [List.filter_eq_nil_iff]
    intro c hcc hin
    have hcc := (proximity_spec h).1.mem_iff.1 hcc
    obtain ⟨h1, h2⟩ := inBox_bounds hx hy (hc c hcc) hin
    rcases bboxRange_none h hr c hcc with h3 | h3 <;> omega
  | some r =>
    obtain ⟨r1, r2, r3⟩ := bboxRange_some h hr
    unfold bboxProximity proximity
    rw [hr]
    simp only
    rw [if_neg (by omega), if_neg (by omega)]
    obtain ⟨mid, hmid⟩ := coordSearch_isSome (val := interleave p.1 p.2) (offset := 0)
      (show 0 < cs.length by omega)
    have hlt := search_lt h hmid
    rw [hmid]
    simp only [Option.map_some, Option.getD_some, List.filterMap_reverse]
    have e1 : (rangeList r.1 mid).filterMap (filteredGet cs b) =
        ((cs.take mid).drop r.1).filter (fun c => inBox b c.coord) :=
      rangeList_filterMap cs _ (by omega)
    have e2 : (rangeList mid (r.2 + 1)).filterMap (filteredGet cs b) =
        ((cs.take (r.2 + 1)).drop mid).filter (fun c => inBox b c.coord) :=
      rangeList_filterMap cs _ (by omega)
    rw [e1, e2, rangeList_getElem? cs (by omega), rangeList_getElem? cs le_rfl, List.drop_zero,
      List.take_length]
    have hin : ∀ i (hi' : i < cs.length), inBox b cs[i].coord = true → r.1 ≤ i ∧ i ≤ r.2 := by
      intro i hi hp
      obtain ⟨g1, g2⟩ := inBox_bounds hx hy (hc cs[i] (List.getElem_mem hi)) hp
      rw [← coordAt_eq hi] at g1 g2
      exact r3 i hi g1 g2
    have hh : ((cs.take mid).drop r.1).filter (fun c => inBox b c.coord) =
        (cs.take mid).filter (fun c => inBox b c.coord) := by
      have := filter_range (cs := cs.take mid) (p := fun c => inBox b c.coord) (lo := r.1)
        (hi := mid) (by
          intro i hi' hp
          rw [List.getElem_take] at hp
          simp only [List.length_take] at hi'
          exact ⟨(hin i (by omega) hp).1, by omega⟩)
      rwa [List.take_take, min_self] at this
    have ht : ((cs.take (r.2 + 1)).drop mid).filter (fun c => inBox b c.coord) =
        (cs.drop mid).filter (fun c => inBox b c.coord) := by
      rw [List.drop_take]
      have := filter_range (cs := cs.drop mid) (p := fun c => inBox b c.coord) (lo := 0)
        (hi := r.2 + 1 - mid) (by
          intro i hi' hp
          rw [List.getElem_drop] at hp
          simp only [List.length_drop] at hi'
          have := (hin (mid + i) (by omega) hp).2
          omega)
      rwa [List.drop_zero] at this
    rw [hh, ht, ← List.filter_reverse]
    symm
    refine filter_mergeBy (fun c : Coord => zDist (interleave p.1 p.2) c.coord) _ _ _ ?_ ?_
    · have := head_pairwise (lo := 0) h hmid (fun _ => true)
      simpa only [List.filter_true, List.drop_zero] using this
    · have := tail_pairwise (hi := cs.length) h hmid (fun _ => true)
      simpa only [List.filter_true, List.take_length] using this

/-- With a box: the tiles that come without it, but for those outside. -/
theorem selectCoords_filter {opts : MatchOpts} {cs : List Coord} (ho : OptsWf opts)
    (h : Descending cs) (hc : ∀ c ∈ cs, c.coord < 2 ^ 32) :
    selectCoords opts cs = (selectCoords { opts with bbox := none } cs).filter
      (fun c => tileIn opts c.coord) := by
  obtain ⟨b, p, z⟩ := opts
  cases b with
  | none => simp only [tileIn, List.filter_true]
  | some b =>
    obtain ⟨hx, hy⟩ := ho.1 b rfl
    cases p with
    | none => exact bboxFilter_eq h hc hx hy
    | some p => exact bboxProximity_eq h hc hx hy

/-- Boxes that let the same tiles through select the same list. -/
theorem selectCoords_same {opts opts' : MatchOpts} {cs : List Coord} (ho : OptsWf opts)
    (ho' : OptsWf opts') (hp : opts.proximity = opts'.proximity) (h : Descending cs)
    (hc : ∀ c ∈ cs, c.coord < 2 ^ 32)
    (hsame : ∀ c ∈ cs, tileIn opts c.coord = tileIn opts' c.coord) :
    selectCoords opts cs = selectCoords opts' cs := by
  rw [selectCoords_filter ho h hc, selectCoords_filter ho' h hc]
  have hn : selectCoords { opts with bbox := none } cs =
      selectCoords { opts' with bbox := none } cs := by
    unfold selectCoords
    rw [hp]
  rw [← hn]
  refine List.filter_congr fun c hm => hsame c ?_
  unfold selectCoords at hm
  cases hpr : opts.proximity with
  | none => simp only [hpr] at hm; exact hm
  | some p => simp only [hpr] at hm; exact (proximity_spec h).1.mem_iff.1 hm

theorem mapM_congr_mem {α β : Type} {f g : α → Option β} {l : List α}
    (h : ∀ a ∈ l, f a = g a) : l.mapM f = l.mapM g := by
  induction l with
  | nil => rfl
  | cons a t ih =>
    rw [List.mapM_cons, List.mapM_cons, h a List.mem_cons_self,
      ih fun a ha => h a (List.mem_cons_of_mem _ ha)]

theorem scoreCoord_same {opts opts' : MatchOpts} (h : SameButBox opts opts') (radius : F64)
    (score : ℕ) : scoreCoord opts radius score = scoreCoord opts' radius score := by
  funext c
  unfold scoreCoord
  rw [h.point, h.zoom]

/-- Boxes that let the same tiles of a record through. -/
theorem decodeMatching_box (M : KMerger) {chk : Bool} {opts opts' : MatchOpts} {radius : F64}
    (ml : Bool) {v : Bytes} {rec : List (RelevScore × List (Coord × List ℕ))} (h : ReadsAs v rec)
    (hs : ShapeOk (shape rec)) (hb : SameButBox opts opts') (ho : OptsWf opts)
    (ho' : OptsWf opts') (hf : BoxFit chk opts) (hf' : BoxFit chk opts')
    (hsame : ∀ g ∈ rec, ∀ c ∈ g.2, tileIn opts c.1.coord = tileIn opts' c.1.coord) :
    decodeMatching M chk opts ml radius v = decodeMatching M chk opts' ml radius v := by
  obtain ⟨a, ha, hv⟩ := h.root
  unfold decodeMatching
  rw [ha]
  simp only [Option.bind_eq_bind, Option.bind_some]
  rw [hv]
  simp only [Option.bind_some]
  congr 1
  refine mapM_congr_mem fun g hg => ?_
  congr 1
  refine mapM_congr_mem fun rs hrs => ?_
  obtain ⟨x, hx, rfl⟩ := (mem_relevGroups hg hrs).1
  rw [h.coords x hx]
  simp only [Option.bind_some]
  have hd := hs.descending hx
  rw [scoreCoord_same hb, selectCoords_same ho ho' hb.point hd (hs.coord_lt hx) (by
    intro c hc
    obtain ⟨c', hc', rfl⟩ := List.mem_map.1 hc
    exact hsame x hx c' hc')]
  have hcond : (chk && !selectAsserts opts (x.2.map Prod.fst)) =
      (chk && !selectAsserts opts' (x.2.map Prod.fst)) := by
    cases hk : chk with
    | false => rfl
    | true =>
      rw [selectAsserts_of ho (hf hk) hd, selectAsserts_of ho' (hf' hk) hd]
  rw [hcond]

theorem takeMatching_mem {k : MatchKey} {m : TypeMarker} :
    ∀ {l rows : List (Bytes × Bytes)}, Store.takeMatching k m l = some rows →
      ∀ r ∈ rows, r ∈ l ∧ k.matchesKey m r.1 = some true := by
  intro l
  induction l with
  | nil =>
    intro rows h r hr
    cases h
    cases hr
  | cons a t ih =>
    intro rows h r hr
    unfold Store.takeMatching at h
    split at h
    · cases h
    · cases h; cases hr
    · obtain ⟨rest, h1, rfl⟩ := Option.map_eq_some_iff.1 h
      rcases List.mem_cons.1 hr with rfl | hr
      · exact ⟨List.mem_cons_self, by assumption⟩
      · obtain ⟨h2, h3⟩ := ih h1 r hr
        exact ⟨List.mem_cons_of_mem _ h2, h3⟩

/-- The rows a query reads are records of the store. -/
theorem queryRows_mem {s : Store} {chk : Bool} {mk : MatchKey} {rows : List (Bytes × Bytes)}
    (h : s.queryRows chk mk = some rows) : ∀ r ∈ rows, r ∈ s.db ∧ r.1 ≠ boundsKey := by
  unfold Store.queryRows at h
  simp only [Option.bind_eq_bind, Option.bind_eq_some_iff] at h
  obtain ⟨plan, _, h⟩ := h
  intro r hr
  obtain ⟨h1, h2⟩ := takeMatching_mem h r hr
  refine ⟨(List.dropWhile_sublist _).subset h1, fun hb => ?_⟩
  rw [hb, matchesKey_bounds] at h2
  cases h2

theorem fillQueue_same {M : KMerger} {H : Heap QueueElement.key} {chk : Bool} {s : Store}
    {mk : MatchKey} {opts opts' : MatchOpts} {n : ℕ} {rows : List (Bytes × Bytes)}
    (h : ∀ r ∈ rows, s.rowElement M chk mk opts r = s.rowElement M chk mk opts' r) :
    ∀ q, Store.fillQueue M H chk s mk opts n q rows =
      Store.fillQueue M H chk s mk opts' n q rows := by
  induction rows with
  | nil => intro q; rfl
  | cons r t ih =>
    intro q
    unfold Store.fillQueue
    rw [h r List.mem_cons_self]
    simp only [ih fun r hr => h r (List.mem_cons_of_mem _ hr)]

theorem tileIn_iff {opts : MatchOpts} {z : ℕ} : tileIn opts z = true ↔
    ∀ b, opts.bbox = some b → b.minX ≤ (deinterleave z).1 ∧ (deinterleave z).1 ≤ b.maxX ∧
      b.minY ≤ (deinterleave z).2 ∧ (deinterleave z).2 ≤ b.maxY := by
  unfold tileIn
  cases hb : opts.bbox with
  | none => simp
  | some b =>
    simp only [inBox, Bool.and_eq_true, decide_eq_true_iff, Option.some.injEq, forall_eq', and_assoc]

theorem rowElement_same {s : Store} (hd : LaidOut s.db) {opts opts' : MatchOpts}
    (hb : SameButBox opts opts') (hsame : SameTiles opts opts' s) (M : KMerger) {chk : Bool}
    (ho : OptsWf opts) (ho' : OptsWf opts') (hf : BoxFit chk opts) (hf' : BoxFit chk opts')
    (mk : MatchKey) {r : Bytes × Bytes} (hr : r ∈ s.db) (hrb : r.1 ≠ boundsKey) :
    s.rowElement M chk mk opts r = s.rowElement M chk mk opts' r := by
  rcases hd.rows r hr with ⟨kind, k, groups, -, -, -, h2, h3, h4⟩ | hbk
  · obtain ⟨⟨rec, h5, rfl⟩, h6⟩ := h3.reads h2
    have hs : ShapeOk (shape rec) := ⟨h4.1, h4.2, h6⟩
    have heq : ∀ ml, decodeMatching M chk opts ml s.radius r.2 =
        decodeMatching M chk opts' ml s.radius r.2 := by
      intro ml
      refine decodeMatching_box M ml h5 hs hb ho ho' hf hf' fun g hg c hc => ?_
      have hlt := hs.coord_lt hg c.1 (List.mem_map.2 ⟨c, hc, rfl⟩)
      have hdl := deinterleave_lt c.1.coord
      have htile : IsTile c.1.coord (deinterleave c.1.coord).1 (deinterleave c.1.coord).2 := by
        have := isTile_interleave hdl.1 hdl.2
        rwa [interleave_deinterleave hlt] at this
      have hkey : r.1 ≠ "~BOUNDS".toList.map Char.toNat := by rw [boundsKey_eq]; exact hrb
      have hst : StoredTile s.db (deinterleave c.1.coord).1 (deinterleave c.1.coord).2 :=
        ⟨r, hr, hkey, shape rec, h3, _, List.mem_map_of_mem hg, _, List.mem_map_of_mem hc, htile⟩
      have := hsame _ _ hst
      rw [Bool.eq_iff_iff, tileIn_iff, tileIn_iff]
      exact this
    unfold Store.rowElement
    simp only [heq]
  · rw [boundsKey_eq] at hbk
    exact absurd hbk hrb

theorem getMatching_same {s : Store} (hd : LaidOut s.db) {opts opts' : MatchOpts}
    (hb : SameButBox opts opts') (hsame : SameTiles opts opts' s) (M : KMerger)
    (H : Heap QueueElement.key) {chk : Bool} (ho : OptsWf opts) (ho' : OptsWf opts')
    (hf : BoxFit chk opts) (hf' : BoxFit chk opts') (mk : MatchKey) (n : ℕ) :
    s.getMatching M H chk mk opts n = s.getMatching M H chk mk opts' n := by
  have key : ∀ rows, s.queryRows chk mk = some rows → ∀ q,
      Store.fillQueue M H chk s mk opts n q rows = Store.fillQueue M H chk s mk opts' n q rows := by
    intro rows hq
    refine fillQueue_same fun r hr => ?_
    obtain ⟨h1, h2⟩ := queryRows_mem hq r hr
    exact rowElement_same hd hb hsame M ho ho' hf hf' mk h1 h2
  unfold Store.getMatching
  cases hq : s.queryRows chk mk with
  | none => simp only [Option.bind_eq_bind, Option.bind_none]
  | some rows => simp only [Option.bind_eq_bind, Option.bind_some, key rows hq]

end Carmen

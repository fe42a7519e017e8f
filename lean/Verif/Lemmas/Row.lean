import Verif.Spec.Query
import Verif.Lemmas.KMerge
import Verif.Lemmas.Spatial
import Verif.Lemmas.Entries
import Verif.Lemmas.GroupBy
import Verif.Lemmas.Distance

/-!
# What one stored row contributes to a query
-/

namespace Carmen
open Format Spec

/-- Order of a decoded record. -/
structure ShapeOk (s : List (ℕ × List (ℕ × List ℕ))) : Prop where
  groups : s.Pairwise (fun a b => b.1 < a.1)
  tiles : ∀ g ∈ s, g.2.Pairwise (fun a b => b.1 < a.1)
  small : ∀ g ∈ s, ∀ c ∈ g.2, c.1 < 2 ^ 32

theorem shapeOk_normEntry {o : IterOrder} {e : BuilderEntry} (he : EntryWf e)
    (hb : EntryBounds e) : ShapeOk (normEntry o e) := by
  refine ⟨?_, ?_, ?_⟩
  · unfold normEntry
    rw [List.pairwise_map]
    exact sortDesc_strict (((o.perm e).map Prod.fst).nodup_iff.2 he.1)
  · intro g hg
    obtain ⟨g', hg', rfl⟩ := List.mem_map.1 hg
    rw [mem_sortDesc_run] at hg'
    show ((sortDesc (o.run g'.2)).map _).Pairwise _
    rw [List.pairwise_map]
    exact sortDesc_strict (((o.perm g'.2).map Prod.fst).nodup_iff.2 (he.2 g' hg'))
  · intro g hg c hc
    obtain ⟨g', hg', rfl⟩ := List.mem_map.1 hg
    rw [mem_sortDesc_run] at hg'
    obtain ⟨c', hc', rfl⟩ := List.mem_map.1 hc
    rw [mem_sortDesc_run] at hc'
    exact ((hb g' hg').2 c' hc').1

/-! ## Tile selection -/

/-- The filter of the specification on a tile number. -/
def tileIn (opts : MatchOpts) (z : ℕ) : Bool :=
  match opts.bbox with
  | none => true
  | some b => inBox b z

theorem tileIn_entryOf (opts : MatchOpts) (rs z i : ℕ) :
    decide (InBox opts (entryOf rs z i)) = tileIn opts z := by
  rw [Bool.eq_iff_iff, decide_eq_true_iff]
  rcases opts with ⟨_ | b, prox, zoom⟩
  · simp [InBox, tileIn]
  · simp only [InBox, tileIn, entryOf, inBox, Bool.and_eq_true, decide_eq_true_iff, and_assoc]

theorem selectCoords_perm {opts : MatchOpts} (ho : OptsWf opts) {cs : List Coord}
    (h : Descending cs) (hc : ∀ c ∈ cs, c.coord < 2 ^ 32) :
    (selectCoords opts cs).Perm (cs.filter (fun c => tileIn opts c.coord)) := by
  unfold selectCoords tileIn
  cases hb : opts.bbox with
  | none =>
    cases hp : opts.proximity with
    | none => simp
    | some p => simpa using (proximity_spec h).1
  | some b =>
    obtain ⟨hx, hy⟩ := ho.1 b hb
    cases hp : opts.proximity with
    | none =>
      simp only
      rw [bboxFilter_eq h hc hx hy]
    | some p => exact (bboxProximity_spec h hc hx hy).1

theorem selectCoords_eq {opts : MatchOpts} (ho : OptsWf opts) (hp : opts.proximity = none)
    {cs : List Coord} (h : Descending cs) (hc : ∀ c ∈ cs, c.coord < 2 ^ 32) :
    selectCoords opts cs = cs.filter (fun c => tileIn opts c.coord) := by
  unfold selectCoords tileIn
  cases hb : opts.bbox with
  | none => simp [hp]
  | some b =>
    obtain ⟨hx, hy⟩ := ho.1 b hb
    simp only [hp]
    exact bboxFilter_eq h hc hx hy

/-! ## One result -/

theorem relevOfInt_mul_one (n : ℕ) : relevOfInt n * 1 = relevOfInt n := by
  unfold relevOfInt
  split
  · decide +kernel
  · split
    · decide +kernel
    · split <;> decide +kernel

theorem mkMatch_eq_report (opts : MatchOpts) (radius : F64) (ml : Bool) (rs : ℕ) (c : Coord)
    (i : ℕ) :
    mkMatch ml (relevOfInt (rs >>> 4)) (scoreCoord opts radius (rs &&& 15) c) i =
      report opts radius ml (entryOf rs c.coord i) := by
  have hw : ∀ q : Prop, ∀ inst : Decidable q, ∀ w : Bool, (w = true ↔ q) →
      relevOfInt (rs >>> 4) * (if (ml || w) = true then 1 else lit 0.96) =
        (if ml = true ∨ q then relevOfInt (rs >>> 4) else relevOfInt (rs >>> 4) * lit 0.96) := by
    intro q inst w hq
    by_cases h : ml = true ∨ q
    · rw [if_pos h, if_pos (by rw [Bool.or_eq_true, hq]; exact h), relevOfInt_mul_one]
    · rw [if_neg h, if_neg (by rw [Bool.or_eq_true, hq]; exact h)]
  rcases opts with ⟨bbox, _ | p, zoom⟩
  · simp only [mkMatch, scoreCoord, report, distanceOf, scoredistOf, langFactor, entryOf,
      MatchEntry.mk.injEq, GridEntry.mk.injEq, and_true]
    exact hw _ _ _ (by simp [WithinRadius])
  · simp only [mkMatch, scoreCoord, report, distanceOf, scoredistOf, langFactor, entryOf,
      MatchEntry.mk.injEq, GridEntry.mk.injEq, and_true]
    exact hw _ _ _ (by simp [WithinRadius])

/-! ## The streams of a row -/

section
variable {v : Bytes} {rec : List (RelevScore × List (Coord × List ℕ))}

/-- The tiles of a relevance-score group, read back. -/
def coordsOf (v : Bytes) (rs : RelevScore) : List Coord := (readUniformVec v rs.coords).getD []
/-- The ids of a tile, read back. -/
def idsOf (v : Bytes) (c : Coord) : List ℕ := (readFixedVec v c.ids).getD []

theorem ReadsAs.coordsOf_eq (h : ReadsAs v rec) {g : RelevScore × List (Coord × List ℕ)}
    (hg : g ∈ rec) : coordsOf v g.1 = g.2.map Prod.fst := by
  unfold coordsOf; rw [h.coords g hg]; rfl

theorem ReadsAs.idsOf_eq (h : ReadsAs v rec) {g : RelevScore × List (Coord × List ℕ)}
    (hg : g ∈ rec) {c : Coord × List ℕ} (hc : c ∈ g.2) : idsOf v c.1 = c.2 := by
  unfold idsOf; rw [h.ids g hg c hc]; rfl

/-- The stream of one relevance-score group. -/
def stream (opts : MatchOpts) (radius : F64) (v : Bytes) (rs : RelevScore) : List ScoredCoord :=
  (selectCoords opts (coordsOf v rs)).map (scoreCoord opts radius (rs.relevScore &&& 15))

/-- The results of one tile. -/
def tileMatches (ml : Bool) (relev : F64) (v : Bytes) (s : ScoredCoord) : List MatchEntry :=
  (idsOf v s.coord).map (mkMatch ml relev s)

theorem ShapeOk.descending (hs : ShapeOk (shape rec)) {g : RelevScore × List (Coord × List ℕ)}
    (hg : g ∈ rec) : Descending (g.2.map Prod.fst) := by
  have := hs.tiles (g.1.relevScore, g.2.map (fun c => (c.1.coord, c.2)))
    (List.mem_map.2 ⟨g, hg, rfl⟩)
  unfold Descending
  rw [List.pairwise_map] at this ⊢
  exact this

theorem ShapeOk.coord_lt (hs : ShapeOk (shape rec)) {g : RelevScore × List (Coord × List ℕ)}
    (hg : g ∈ rec) : ∀ c ∈ g.2.map Prod.fst, c.coord < 2 ^ 32 := by
  intro c hc
  obtain ⟨c', hc', rfl⟩ := List.mem_map.1 hc
  exact hs.small _ (List.mem_map.2 ⟨g, hg, rfl⟩) _ (List.mem_map.2 ⟨c', hc', rfl⟩)

/-- Score-distances of a query are numbers. -/
def NumbersOk (opts : MatchOpts) (radius : F64) : Prop :=
  opts.proximity ≠ none → opts.zoom ≤ 16 ∧ radius ≠ .nan

theorem scoreCoord_ne_nan {opts : MatchOpts} {radius : F64} (ho : OptsWf opts)
    (hn : NumbersOk opts radius) {score : ℕ} (hsc : score ≤ 15) (c : Coord) :
    (scoreCoord opts radius score c).scoredist ≠ .nan := by
  unfold scoreCoord
  cases hp : opts.proximity with
  | none =>
    simp only
    rw [F64.ofNat_eq (by omega)]; simp
  | some p =>
    simp only
    obtain ⟨h1, h2⟩ := ho.2 p hp
    obtain ⟨d1, d2⟩ := deinterleave_lt c.coord
    obtain ⟨hz, hr⟩ := hn (by rw [hp]; simp)
    exact scoredist_ne_nan (tileDist_fin h1 h2 d1 d2) hz hr

theorem mem_stream {opts : MatchOpts} {radius : F64} {rs : RelevScore} {s : ScoredCoord}
    (h : s ∈ stream opts radius v rs) :
    ∃ c ∈ selectCoords opts (coordsOf v rs),
      scoreCoord opts radius (rs.relevScore &&& 15) c = s := List.mem_map.1 h

theorem scoreCoord_coord (opts : MatchOpts) (radius : F64) (score : ℕ) (c : Coord) :
    (scoreCoord opts radius score c).coord = c := by
  unfold scoreCoord; cases opts.proximity <;> rfl

/-- The merged tiles of one relevance. -/
def mergedGroup (M : KMerger) (opts : MatchOpts) (radius : F64) (v : Bytes)
    (rss : List RelevScore) : List ScoredCoord :=
  M.merge (fun a b => decide (b.scoredist < a.scoredist)) (rss.map (stream opts radius v))

/-- The relevance groups of a record. -/
def relevGroups (rec : List (RelevScore × List (Coord × List ℕ))) :
    List (F64 × List RelevScore) :=
  groupBy (fun rs : RelevScore => relevOfInt (rs.relevScore >>> 4)) (rec.map Prod.fst)

theorem mem_relevGroups {g : F64 × List RelevScore} (hg : g ∈ relevGroups rec) {rs : RelevScore}
    (hrs : rs ∈ g.2) : (∃ x ∈ rec, x.1 = rs) ∧ relevOfInt (rs.relevScore >>> 4) = g.1 := by
  refine ⟨?_, groupBy_key hg hrs⟩
  have : rs ∈ (relevGroups rec).flatMap Prod.snd := List.mem_flatMap.2 ⟨g, hg, hrs⟩
  unfold relevGroups at this
  rw [groupBy_concat] at this
  exact List.mem_map.1 this

theorem boxFit_false (opts : MatchOpts) : BoxFit false opts := fun h => nomatch h

/-- The debug assertions hold for tiles in order and a box with its corners in order. -/
theorem selectAsserts_of {opts : MatchOpts} (ho : OptsWf opts)
    (hb : ∀ b, opts.bbox = some b → b.minX ≤ b.maxX ∧ b.minY ≤ b.maxY) {cs : List Coord}
    (h : Descending cs) : selectAsserts opts cs = true := by
  unfold selectAsserts
  cases hob : opts.bbox with
  | none => rfl
  | some b =>
    obtain ⟨h1, h2, h3⟩ := bboxRange_asserts h (hb b hob).1 (hb b hob).2 (ho.1 b hob).1
      (ho.1 b hob).2
    have : bboxRangeAsserts cs b = true := by
      unfold bboxRangeAsserts
      simp only [h1, h2, decide_true, Bool.or_true, Bool.true_and]
      cases hr : bboxRange cs b with
      | none => rfl
      | some r => simpa using h3 r hr
    simp only [this, Bool.or_true]

theorem mapM_relax {α β : Type} {f g : α → Option β} {l : List α} {r : List β}
    (h : ∀ a ∈ l, ∀ b, f a = some b → g a = some b) (hf : l.mapM f = some r) :
    l.mapM g = some r := by
  induction l generalizing r with
  | nil => exact hf
  | cons a l ih =>
    rw [List.mapM_cons] at hf ⊢
    simp only [Option.bind_eq_bind, Option.bind_eq_some_iff] at hf ⊢
    obtain ⟨b, h1, bs, h2, h3⟩ := hf
    exact ⟨b, h a List.mem_cons_self b h1, bs, ih (fun a ha => h a (List.mem_cons_of_mem _ ha)) h2, h3⟩

/-- What a build with debug assertions returns, a build without returns as well. -/
theorem decodeMatching_relax {M : KMerger} {chk : Bool} {opts : MatchOpts} {radius : F64} {ml : Bool}
    {out : List MatchEntry} (h : decodeMatching M chk opts ml radius v = some out) :
    decodeMatching M false opts ml radius v = some out := by
  unfold decodeMatching at h ⊢
  simp only [Option.bind_eq_bind, Option.bind_eq_some_iff] at h ⊢
  obtain ⟨root, h1, rss, h2, gs, h3, h4⟩ := h
  refine ⟨root, h1, rss, h2, gs, mapM_relax ?_ h3, h4⟩
  intro g _ es hes
  simp only [Option.bind_eq_some_iff] at hes ⊢
  obtain ⟨ss, e1, rest⟩ := hes
  refine ⟨ss, mapM_relax ?_ e1, rest⟩
  intro rs _ s hs
  simp only [Option.bind_eq_some_iff] at hs ⊢
  obtain ⟨cs, c1, c2⟩ := hs
  refine ⟨cs, c1, ?_⟩
  rw [if_neg (by simp)]
  split_ifs at c2
  exact c2

/-- `decode_matching_value` on a well-formed record: no panic, and the result in terms of
the merged tiles. -/
theorem decodeMatching_eq (M : KMerger) {chk : Bool} {opts : MatchOpts} {radius : F64} (ml : Bool)
    (ho : OptsWf opts) (hbf : BoxFit chk opts) (hn : NumbersOk opts radius) (h : ReadsAs v rec)
    (hs : ShapeOk (shape rec)) :
    decodeMatching M chk opts ml radius v = some ((relevGroups rec).flatMap (fun g =>
      (mergedGroup M opts radius v g.2).flatMap (tileMatches ml g.1 v))) := by
  obtain ⟨a, ha, hv⟩ := h.root
  unfold decodeMatching
  rw [ha]
  simp only [Option.bind_eq_bind, Option.bind_some]
  rw [hv]
  simp only [Option.bind_some]
  rw [mapM_eq_some (g := fun g => (mergedGroup M opts radius v g.2).flatMap
    (tileMatches ml g.1 v))]
  · rfl
  intro g hg
  have hmem : ∀ rs ∈ g.2, ∃ x ∈ rec, x.1 = rs := fun rs hrs => (mem_relevGroups hg hrs).1
  rw [mapM_eq_some (g := stream opts radius v)]
  · simp only [Option.bind_some]
    have hnan : ¬ (2 ≤ ((g.2.map (stream opts radius v)).filter (· ≠ [])).length ∧
        ∃ s ∈ g.2.map (stream opts radius v), ∃ c ∈ s, c.scoredist = .nan) := by
      rintro ⟨_, s, hss, c, hc, hnan⟩
      obtain ⟨rs, hrs, rfl⟩ := List.mem_map.1 hss
      obtain ⟨cd, _, rfl⟩ := mem_stream hc
      refine scoreCoord_ne_nan ho hn ?_ cd hnan
      rw [and15]; omega
    unfold mergeScores
    rw [if_neg hnan]
    simp only [Option.bind_some]
    rw [mapM_eq_some (g := tileMatches ml g.1 v)]
    · rfl
    · intro s hsm
      have hperm := (M.law_key (fun s : ScoredCoord => s.scoredist)
        (g.2.map (stream opts radius v))).perm
      have hsm' := hperm.mem_iff.1 hsm
      rw [List.mem_flatten] at hsm'
      obtain ⟨t, ht, hst⟩ := hsm'
      obtain ⟨rs, hrs, rfl⟩ := List.mem_map.1 ht
      obtain ⟨cd, hcd, rfl⟩ := mem_stream hst
      obtain ⟨x, hx, rfl⟩ := hmem rs hrs
      rw [h.coordsOf_eq hx] at hcd
      have hcd' := (selectCoords_perm ho (hs.descending hx) (hs.coord_lt hx)).mem_iff.1 hcd
      obtain ⟨c, hc, rfl⟩ := List.mem_map.1 (List.mem_filter.1 hcd').1
      unfold tileMatches
      rw [scoreCoord_coord, h.ids x hx c hc, h.idsOf_eq hx hc]
      rfl
  · intro rs hrs
    obtain ⟨x, hx, rfl⟩ := hmem rs hrs
    unfold stream
    rw [h.coords x hx, h.coordsOf_eq hx]
    simp only [Option.bind_some]
    rw [if_neg]
    simp only [Bool.and_eq_true, Bool.not_eq_true', not_and, Bool.not_eq_false]
    exact fun hk => selectAsserts_of ho (hbf hk) (hs.descending hx)

/-- The results of one relevance-score group, before merging. -/
def groupMatches (opts : MatchOpts) (radius : F64) (ml : Bool)
    (x : RelevScore × List (Coord × List ℕ)) : List MatchEntry :=
  ((x.2.filter (fun c => tileIn opts c.1.coord)).flatMap (fun c => c.2.map (fun i =>
    report opts radius ml (entryOf x.1.relevScore c.1.coord i))))

theorem filter_flatMap_const {α β : Type} (l : List α) (p : α → Bool) (q : β → Bool)
    (f : α → List β) (h : ∀ a ∈ l, ∀ b ∈ f a, q b = p a) :
    (l.filter p).flatMap f = (l.flatMap f).filter q := by
  induction l with
  | nil => rfl
  | cons a t ih =>
    have iht := ih (fun a ha => h a (List.mem_cons_of_mem _ ha))
    rw [List.flatMap_cons, List.filter_append, ← iht]
    have ha := h a (List.mem_cons_self ..)
    by_cases hp : p a = true
    · rw [List.filter_cons_of_pos hp, List.flatMap_cons,
        (List.filter_eq_self (l := f a)).2 (fun b hb => by rw [ha b hb, hp])]
    · rw [List.filter_cons_of_neg hp,
        (List.filter_eq_nil_iff (l := f a)).2 (fun b hb => by rw [ha b hb]; exact hp)]
      rfl

theorem groupMatches_concat (opts : MatchOpts) (radius : F64) (ml : Bool) :
    rec.flatMap (groupMatches opts radius ml) =
      ((shapeEntries (shape rec)).filter (fun e => decide (InBox opts e))).map
        (report opts radius ml) := by
  have h1 : ∀ x ∈ rec, groupMatches opts radius ml x =
      ((x.2.flatMap (fun c => c.2.map (entryOf x.1.relevScore c.1.coord))).filter
        (fun e => decide (InBox opts e))).map (report opts radius ml) := by
    intro x _
    unfold groupMatches
    rw [← filter_flatMap_const (p := fun c => tileIn opts c.1.coord)]
    · rw [List.map_flatMap]
      congr 1
      funext c
      rw [List.map_map]; rfl
    · intro c hc e he
      obtain ⟨i, _, rfl⟩ := List.mem_map.1 he
      exact tileIn_entryOf _ _ _ _
  unfold shapeEntries shape
  rw [List.flatMap_map, List.filter_flatMap, List.map_flatMap]
  refine List.flatMap_congr ?_
  intro x hx
  rw [h1 x hx]
  simp only [List.flatMap_map]

theorem flatMap_stream (opts : MatchOpts) (radius : F64) (ml : Bool)
    (x : RelevScore × List (Coord × List ℕ)) (cs : List Coord) :
    (cs.map (scoreCoord opts radius (x.1.relevScore &&& 15))).flatMap
      (tileMatches ml (relevOfInt (x.1.relevScore >>> 4)) v) =
    cs.flatMap (fun c => (idsOf v c).map (fun i =>
      report opts radius ml (entryOf x.1.relevScore c.coord i))) := by
  rw [List.flatMap_map]
  refine List.flatMap_congr ?_
  intro c hc
  unfold tileMatches
  rw [scoreCoord_coord]
  refine List.map_congr_left ?_
  intro i _
  exact mkMatch_eq_report opts radius ml x.1.relevScore c i

theorem groupMatches_eq (opts : MatchOpts) (radius : F64) (ml : Bool) (h : ReadsAs v rec)
    {x : RelevScore × List (Coord × List ℕ)} (hx : x ∈ rec) :
    groupMatches opts radius ml x =
    ((x.2.map Prod.fst).filter (fun c => tileIn opts c.coord)).flatMap (fun c =>
      (idsOf v c).map (fun i =>
        report opts radius ml (entryOf x.1.relevScore c.coord i))) := by
  unfold groupMatches
  rw [List.filter_map, List.flatMap_map]
  refine List.flatMap_congr ?_
  intro c hc
  rw [h.idsOf_eq hx (List.mem_filter.1 hc).1]

theorem stream_perm {opts : MatchOpts} {radius : F64} (ml : Bool) (ho : OptsWf opts)
    (h : ReadsAs v rec) (hs : ShapeOk (shape rec))
    {x : RelevScore × List (Coord × List ℕ)} (hx : x ∈ rec) :
    ((stream opts radius v x.1).flatMap (tileMatches ml (relevOfInt (x.1.relevScore >>> 4)) v)).Perm
      (groupMatches opts radius ml x) := by
  have hp := selectCoords_perm ho (hs.descending hx) (hs.coord_lt hx)
  unfold stream
  rw [h.coordsOf_eq hx, flatMap_stream opts radius ml x, groupMatches_eq opts radius ml h hx]
  exact hp.flatMap_right _

theorem stream_eq {opts : MatchOpts} {radius : F64} (ml : Bool) (ho : OptsWf opts)
    (hpr : opts.proximity = none) (h : ReadsAs v rec) (hs : ShapeOk (shape rec))
    {x : RelevScore × List (Coord × List ℕ)} (hx : x ∈ rec) :
    (stream opts radius v x.1).flatMap (tileMatches ml (relevOfInt (x.1.relevScore >>> 4)) v) =
      groupMatches opts radius ml x := by
  have hp := selectCoords_eq ho hpr (hs.descending hx) (hs.coord_lt hx)
  unfold stream
  rw [h.coordsOf_eq hx, hp, flatMap_stream opts radius ml x, groupMatches_eq opts radius ml h hx]

/-- Reassembling the relevance groups. -/
theorem relevGroups_flatMap {β : Type} (f : RelevScore → List β) :
    (relevGroups rec).flatMap (fun g => g.2.flatMap f) = rec.flatMap (fun x => f x.1) := by
  rw [← List.flatMap_assoc]
  unfold relevGroups
  rw [groupBy_concat, List.flatMap_map]

theorem perm_flatMap {α β : Type} {l : List α} {f g : α → List β}
    (h : ∀ a ∈ l, (f a).Perm (g a)) : (l.flatMap f).Perm (l.flatMap g) := by
  induction l with
  | nil => exact List.Perm.refl _
  | cons a t ih =>
    rw [List.flatMap_cons, List.flatMap_cons]
    exact (h a (List.mem_cons_self ..)).append (ih (fun b hb => h b (List.mem_cons_of_mem _ hb)))

/-- What one row contributes: exactly the reports of its entries in the box. -/
theorem decodeMatching_perm (M : KMerger) {chk : Bool} {opts : MatchOpts} {radius : F64} (ml : Bool)
    (ho : OptsWf opts) (hbf : BoxFit chk opts) (hn : NumbersOk opts radius) (h : ReadsAs v rec)
    (hs : ShapeOk (shape rec)) :
    ∃ out, decodeMatching M chk opts ml radius v = some out ∧
      out.Perm (((shapeEntries (shape rec)).filter (fun e => decide (InBox opts e))).map
        (report opts radius ml)) := by
  refine ⟨_, decodeMatching_eq M ml ho hbf hn h hs, ?_⟩
  rw [← groupMatches_concat]
  let f : RelevScore → List MatchEntry := fun rs =>
    (stream opts radius v rs).flatMap (tileMatches ml (relevOfInt (rs.relevScore >>> 4)) v)
  have h1 : ((relevGroups rec).flatMap (fun g =>
      (mergedGroup M opts radius v g.2).flatMap (tileMatches ml g.1 v))).Perm
      ((relevGroups rec).flatMap (fun g => g.2.flatMap f)) := by
    refine perm_flatMap ?_
    intro g hg
    have hp := (M.law_key (fun s : ScoredCoord => s.scoredist)
      (g.2.map (stream opts radius v))).perm
    refine (hp.flatMap_right _).trans ?_
    rw [← List.flatMap_def, List.flatMap_assoc]
    refine perm_flatMap ?_
    intro rs hrs
    rw [← (mem_relevGroups hg hrs).2]
  refine h1.trans ?_
  rw [relevGroups_flatMap]
  exact perm_flatMap (fun x hx => stream_perm ml ho h hs hx)

/-- Scores within one relevance descend when no score spills into the relevance bits. -/
theorem relevGroups_scores (hs : ShapeOk (shape rec))
    {g : F64 × List RelevScore} (hg : g ∈ relevGroups rec) :
    g.2.Pairwise (fun a b => a.relevScore < 64 → b.relevScore < 64 →
      b.relevScore &&& 15 < a.relevScore &&& 15) := by
  have hrs : (rec.map Prod.fst).Pairwise (fun a b => b.relevScore < a.relevScore) := by
    have := hs.groups
    unfold shape at this
    rw [List.pairwise_map] at this ⊢
    exact this
  have hsub : g.2.Sublist (rec.map Prod.fst) := by
    have hc : (relevGroups rec).flatMap Prod.snd = rec.map Prod.fst := groupBy_concat _ _
    rw [← hc]
    obtain ⟨l1, l2, h12⟩ := List.append_of_mem hg
    rw [h12, List.flatMap_append, List.flatMap_cons]
    exact (List.sublist_append_left _ _).trans (List.sublist_append_right _ _)
  refine (hrs.sublist hsub).imp_of_mem ?_
  intro a b ha hb hlt hx64 hy64
  obtain ⟨⟨x, hx, rfl⟩, ha2⟩ := mem_relevGroups hg ha
  obtain ⟨⟨y, hy, rfl⟩, hb2⟩ := mem_relevGroups hg hb
  have he : x.1.relevScore / 16 = y.1.relevScore / 16 := by
    rw [shr4] at ha2 hb2
    by_contra hne
    rcases lt_or_gt_of_ne hne with hlt' | hlt'
    · exact absurd (ha2.trans hb2.symm) (relevOfInt_strict hlt' (by omega)).ne
    · exact absurd (ha2.trans hb2.symm) (relevOfInt_strict hlt' (by omega)).ne'
  rw [and15, and15]
  omega

/-- Without a proximity point the order is the stored order. -/
theorem decodeMatching_order (M : KMerger) {chk : Bool} {opts : MatchOpts} {radius : F64} (ml : Bool)
    (ho : OptsWf opts) (hbf : BoxFit chk opts) (hpr : opts.proximity = none) (h : ReadsAs v rec)
    (hs : ShapeOk (shape rec)) (h64 : ∀ x ∈ rec, x.2 = [] ∨ x.1.relevScore < 64) :
    decodeMatching M chk opts ml radius v =
      some (((shapeEntries (shape rec)).filter (fun e => decide (InBox opts e))).map
        (report opts radius ml)) := by
  rw [decodeMatching_eq M ml ho hbf (by intro hne; exact absurd hpr hne) h hs, ← groupMatches_concat]
  congr 1
  let f : RelevScore → List MatchEntry := fun rs =>
    (stream opts radius v rs).flatMap (tileMatches ml (relevOfInt (rs.relevScore >>> 4)) v)
  have h1 : (relevGroups rec).flatMap (fun g =>
      (mergedGroup M opts radius v g.2).flatMap (tileMatches ml g.1 v)) =
      (relevGroups rec).flatMap (fun g => g.2.flatMap f) := by
    refine List.flatMap_congr ?_
    intro g hg
    have hk := M.law_key (fun s : ScoredCoord => s.scoredist) (g.2.map (stream opts radius v))
    have hm : mergedGroup M opts radius v g.2 = (g.2.map (stream opts radius v)).flatten := by
      refine hk.eq_flatten (List.Perm.refl _) ?_
      rw [List.pairwise_map]
      refine (relevGroups_scores hs hg).imp_of_mem ?_
      intro a b ha hb hab s hsm t htm
      obtain ⟨c, hc, rfl⟩ := mem_stream hsm
      obtain ⟨d, hd, rfl⟩ := mem_stream htm
      have hlow : ∀ rs ∈ g.2, ∀ c ∈ selectCoords opts (coordsOf v rs), rs.relevScore < 64 := by
        intro rs hrs c hc
        obtain ⟨⟨x, hx, rfl⟩, _⟩ := mem_relevGroups hg hrs
        rcases h64 x hx with h0 | h0
        · rw [h.coordsOf_eq hx] at hc
          have := (selectCoords_perm ho (hs.descending hx) (hs.coord_lt hx)).mem_iff.1 hc
          rw [h0] at this
          simp at this
        · exact h0
      have hab := hab (hlow a ha c hc) (hlow b hb d hd)
      unfold scoreCoord
      simp only [hpr]
      have ha15 : a.relevScore &&& 15 ≤ 15 := by rw [and15]; omega
      rw [F64.ofNat_eq (by omega), F64.ofNat_eq (by omega), F64.fin_lt_fin]
      exact_mod_cast hab
    rw [hm, ← List.flatMap_def, List.flatMap_assoc]
    refine List.flatMap_congr ?_
    intro rs hrs
    rw [← (mem_relevGroups hg hrs).2]
  rw [h1, relevGroups_flatMap]
  exact List.flatMap_congr (fun x hx => stream_eq ml ho hpr h hs hx)

end

end Carmen

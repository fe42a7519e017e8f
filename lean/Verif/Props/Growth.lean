import Verif.Spec.Growth
import Verif.Props.Provenance
import Verif.Props.LanguagesSearch
import Verif.Props.Bins
import Verif.Props.Distance

/-!
# C93: indexes that hold more, and C98: indexes that hold better entries
-/

namespace Carmen
open Format Spec Builder

theorem Spec.StoreWith.laid {c : Content} {s : Store} (h : StoreWith c s) : LaidOut s.db := by
  obtain ⟨o, ds, hd, hfin, hsmall, -⟩ := h
  obtain ⟨c', -, hr⟩ := refines_new.runAll hd
  exact (Directory.finish hr.wf hfin).laidOut hsmall

theorem storeWith_query {c : Content} {s : Store} (h : StoreWith c s) (M : KMerger)
    (H : Heap QueueElement.key) (chk : Bool) (phrase : MatchPhrase) (lang : ℕ)
    (hst : phrase.start < 2 ^ 32) (hmax : phrase ≠ .exact (2 ^ 32 - 1)) (hb : ¬ FromBins s phrase)
    {opts : MatchOpts} (ho : OptsWf opts) (hbf : BoxFit chk opts) (hn : NumbersOk opts s.radius)
    {n : ℕ} (hlim : ∀ ks, s.keys = some ks → ks.length ≤ n) :
    ∃ out, s.getMatching M H chk ⟨phrase, lang⟩ opts n = some out ∧
      ∀ r, r ∈ out ↔ ∃ k es e, c k = some es ∧ InPhrase phrase k.phraseId ∧ e ∈ es ∧
        InBox opts e ∧ r = report opts s.radius (langMatches lang k.langSet) (storedAny e) := by
  obtain ⟨o, ds, hd, hfin, hsmall, heff⟩ := h
  obtain ⟨c', h1, h2⟩ := C65_query o ds hd _ hfin hsmall
  obtain rfl := C65_one_content h1 heff
  exact h2 s rfl M H chk phrase lang hst hmax (fun st en e hx => hb ⟨st, en, e, hx⟩) opts ho hbf hn n
    hlim

/-- **C93**, queries: every result is returned again by an index that holds more. -/
theorem C93_query {c c' : Content} {s s' : Store} (hc : StoreWith c s) (hc' : StoreWith c' s')
    (hm : MoreContent c c') (hrad : s'.radius = s.radius) (M M' : KMerger)
    (H H' : Heap QueueElement.key) (chk : Bool) {phrase : MatchPhrase} (lang : ℕ)
    (hst : phrase.start < 2 ^ 32) (hmax : phrase ≠ .exact (2 ^ 32 - 1)) (hb : ¬ FromBins s phrase)
    (hb' : ¬ FromBins s' phrase) {opts : MatchOpts} (ho : OptsWf opts) (hbf : BoxFit chk opts)
    (hn : NumbersOk opts s.radius) {n : ℕ} (hlim : ∀ ks, s.keys = some ks → ks.length ≤ n)
    (hlim' : ∀ ks, s'.keys = some ks → ks.length ≤ n) :
    ∃ out out', s.getMatching M H chk ⟨phrase, lang⟩ opts n = some out ∧
      s'.getMatching M' H' chk ⟨phrase, lang⟩ opts n = some out' ∧ ∀ r ∈ out, r ∈ out' := by
  obtain ⟨out, h1, h2⟩ := storeWith_query hc M H chk phrase lang hst hmax hb ho hbf hn hlim
  obtain ⟨out', h3, h4⟩ := storeWith_query hc' M' H' chk phrase lang hst hmax hb' ho hbf
    (hrad ▸ hn) hlim'
  refine ⟨out, out', h1, h3, fun r hr => ?_⟩
  obtain ⟨k, es, e, g1, g2, g3, g4, g5⟩ := (h2 r).1 hr
  obtain ⟨es', m1, m2⟩ := hm k es g1
  exact (h4 r).2 ⟨k, es', e, m1, g2, m2 e g3, g4, by rw [hrad]; exact g5⟩

/-! ## Prefix bins -/

theorem mapM_length {α β : Type} {f : α → Option β} {l : List α} {l' : List β}
    (h : l.mapM f = some l') : l'.length = l.length := by
  induction l generalizing l' with
  | nil => simp_all
  | cons a t ih =>
    simp only [List.mapM_cons, Option.bind_eq_bind, Option.bind_eq_some_iff, Option.pure_def,
      Option.some.injEq] at h
    obtain ⟨b, -, t', ht, rfl⟩ := h
    simp [ih ht]

theorem keys_le {s : Store} {n : ℕ} (h : s.db.length ≤ n) :
    ∀ ks, s.keys = some ks → ks.length ≤ n := by
  intro ks hk
  unfold Store.keys at hk
  rw [mapM_length hk]
  exact (List.takeWhile_sublist _).length_le.trans h

theorem bins_query {c : Content} {s : Store} (h : StoreWith c s) (hop : AsOpened s) (M : KMerger)
    (H : Heap QueueElement.key) (chk : Bool) {st en : ℕ} (lang : ℕ) (hb : st ∈ s.bounds ∧ en ∈ s.bounds)
    (hasc : s.bounds.Pairwise (· ≤ ·))
    {opts : MatchOpts} (ho : OptsWf opts) (hbf : BoxFit chk opts) (hn : NumbersOk opts s.radius)
    {n : ℕ} (hlim : s.db.length ≤ n) :
    st < 2 ^ 32 ∧ ∃ out, s.getMatching M H chk ⟨.range st en, lang⟩ opts n = some out ∧
      ∃ out', ({ s with bounds := [] } : Store).getMatching M H chk
        ⟨.range (binStart s.bounds st en) en, lang⟩ opts n = some out' ∧ ∀ r, r ∈ out ↔ r ∈ out' := by
  obtain ⟨o, ds, hd, hfin, hsmall, heff⟩ := h
  obtain ⟨c', -, hr⟩ := refines_new.runAll hd
  obtain ⟨z, t, r, bs, m, hs⟩ := hop
  have hbd : s.bounds = (runAll Builder.new ds).bounds := by
    rw [hs]
    exact C14_boundaries_survive o _ hr.wf.bounds _ hfin z t r bs m
  rw [hbd] at hasc
  obtain ⟨out, out', h1, h2, h3⟩ := C17_bins_exact_partial o _ hr.wf _ hfin hsmall hasc st en lang
    (hbd ▸ hb.1) (hbd ▸ hb.2) s { s with bounds := [] } rfl rfl rfl hb rfl M M H H chk opts ho hbf hn n
    hlim
  exact ⟨hr.wf.bounds st (hbd ▸ hb.1), out, h1, out', by rw [hbd]; exact h2, h3⟩

/-- **C93**, ranges answered from prefix bins: with the same boundaries, in order, every result is
returned again by an index that holds more. -/
theorem C93_bins {c c' : Content} {s s' : Store} (hc : StoreWith c s) (hc' : StoreWith c' s')
    (hop : AsOpened s) (hop' : AsOpened s') (hm : MoreContent c c') (hrad : s'.radius = s.radius)
    (M : KMerger) (H : Heap QueueElement.key) (chk : Bool) {st en : ℕ} (lang : ℕ)
    (hb : st ∈ s.bounds ∧ en ∈ s.bounds) (hasc : s.bounds.Pairwise (· ≤ ·))
    (hbs : s'.bounds = s.bounds) {opts : MatchOpts} (ho : OptsWf opts) (hbf : BoxFit chk opts)
    (hn : NumbersOk opts s.radius) {n : ℕ} (hlim : s.db.length ≤ n) (hlim' : s'.db.length ≤ n) :
    ∃ out out', s.getMatching M H chk ⟨.range st en, lang⟩ opts n = some out ∧
      s'.getMatching M H chk ⟨.range st en, lang⟩ opts n = some out' ∧ ∀ r ∈ out, r ∈ out' := by
  obtain ⟨h32, out, h1, p, h2, h3⟩ := bins_query hc hop M H chk lang hb hasc ho hbf hn hlim
  obtain ⟨-, out', g1, p', g2, g3⟩ := bins_query hc' hop' M H chk lang (hbs ▸ hb) (hbs ▸ hasc) ho hbf
    (hrad ▸ hn) hlim'
  rw [hbs] at g2
  have hst : (MatchPhrase.range (binStart s.bounds st en) en).start < 2 ^ 32 := by
    simp only [MatchPhrase.start, binStart]
    split_ifs
    · decide
    · exact h32
  obtain ⟨p1, p1', k1, k2, k3⟩ := C93_query (s := { s with bounds := [] })
    (s' := { s' with bounds := [] }) hc hc' hm hrad M M H H chk lang hst nofun
    (by rintro ⟨_, _, _, h, -⟩; cases h) (by rintro ⟨_, _, _, h, -⟩; cases h) ho hbf hn
    (keys_le (s := { s with bounds := [] }) hlim) (keys_le (s := { s' with bounds := [] }) hlim')
  rw [h2] at k1
  cases k1
  rw [g2] at k2
  cases k2
  exact ⟨out, out', h1, g1, fun r hr => (g3 r).2 (k3 r ((h3 r).1 hr))⟩

/-- Two phrases, and a boundary before and behind them. -/
def binSmall : List Call := [.loadBounds [5, 9], .append ⟨7, 1⟩ [⟨1, 3, 5, 6, 7, 8⟩]]

/-- The same and another phrase between the boundaries. -/
def binLarge : List Call :=
  [.append ⟨6, 1⟩ [⟨lit 0.8, 1, 2, 2, 2, 2⟩], .append ⟨7, 1⟩ [⟨1, 3, 5, 6, 7, 8⟩], .loadBounds [5, 9]]

theorem binSmall_with : StoreWith (Content.run binSmall) (Store.new (leaves binSmall)) := by
  refine ⟨.id, binSmall, ?_, by
    change finish .id (runAll Builder.new binSmall) = some (leaves binSmall)
    decide +kernel, by
    change ∀ r ∈ leaves binSmall, r.2.length < 2 ^ 32
    decide +kernel, .cons rfl (.cons rfl (.nil _))⟩
  intro d hd
  simp only [binSmall, List.mem_cons, List.not_mem_nil, or_false] at hd
  rcases hd with rfl | rfl <;> simp [Call.Wf, GridKey.Wf, GridEntry.Wf]

theorem binLarge_with : StoreWith (Content.run binLarge) (Store.new (leaves binLarge)) := by
  refine ⟨.id, binLarge, ?_, by
    change finish .id (runAll Builder.new binLarge) = some (leaves binLarge)
    decide +kernel, by
    change ∀ r ∈ leaves binLarge, r.2.length < 2 ^ 32
    decide +kernel, .cons rfl (.cons rfl (.cons rfl (.nil _)))⟩
  intro d hd
  simp only [binLarge, List.mem_cons, List.not_mem_nil, or_false] at hd
  rcases hd with rfl | rfl | rfl <;> simp [Call.Wf, GridKey.Wf, GridEntry.Wf]

theorem bin_more : MoreContent (Content.run binSmall) (Content.run binLarge) := by
  intro k es h
  simp only [binSmall, binLarge, Content.run, List.foldl_cons, List.foldl_nil, Content.call,
    Content.set] at h ⊢
  by_cases hk : k = ⟨7, 1⟩
  · subst hk
    simp only [if_true] at h ⊢
    cases h
    exact ⟨_, rfl, by simp⟩
  · simp [hk] at h

example : ∃ out out',
    (Store.new (leaves binSmall)).getMatching listMerger (listHeap _) true ⟨.range 5 9, 1⟩
      .default 9 = some out ∧
    (Store.new (leaves binLarge)).getMatching listMerger (listHeap _) true ⟨.range 5 9, 1⟩
      .default 9 = some out' ∧ (∀ r ∈ out, r ∈ out') ∧ out.length = 1 ∧ out'.length = 2 := by
  have h1 : ((Store.new (leaves binSmall)).getMatching listMerger (listHeap _) true ⟨.range 5 9, 1⟩
      .default 9).map List.length = some 1 := by decide +kernel
  have h2 : ((Store.new (leaves binLarge)).getMatching listMerger (listHeap _) true ⟨.range 5 9, 1⟩
      .default 9).map List.length = some 2 := by decide +kernel
  obtain ⟨out, out', g1, g2, g3⟩ := C93_bins binSmall_with binLarge_with ⟨_, _, _, _, _, rfl⟩
    ⟨_, _, _, _, _, rfl⟩ bin_more rfl listMerger (listHeap _) true (st := 5) (en := 9) 1
    (by decide +kernel) (by decide +kernel) (by decide +kernel) (opts := .default)
    ⟨by decide, by decide⟩ (fun _ => by simp [MatchOpts.default])
    (fun h => by simp [MatchOpts.default] at h) (n := 9) (by decide +kernel) (by decide +kernel)
  rw [g1] at h1
  rw [g2] at h2
  exact ⟨out, out', g1, g2, g3, by simpa using h1, by simpa using h2⟩

/-! ## Better entries -/

theorem storeWith_wf {c : Content} {s : Store} (h : StoreWith c s) :
    ∀ k es, c k = some es → ∀ e ∈ es, e.Wf := by
  obtain ⟨o, ds, hd, -, -, heff⟩ := h
  exact effects_entries heff GridEntry.Wf (by simp) fun d hdd v hv => call_entries_wf (hd d hdd) v hv

theorem langMatches_more {l l' : ℕ} (h : StoredForMore l l') {lang : ℕ}
    (hm : langMatches lang l = true) : langMatches lang l' = true := by
  unfold langMatches at hm ⊢
  rw [decide_eq_true_iff] at hm ⊢
  rcases h with h | ⟨hn, h⟩
  · exact Or.inl h
  · rcases hm with hm | ⟨i, hi, h1, h2⟩
    · exact absurd hm hn
    · exact Or.inr ⟨i, hi, h1, h i (List.mem_range.1 hi) h2⟩

theorem more_raised {c c' : Content} (h : MoreContent c c') : RaisedContent c c' := by
  intro k es e hk he
  obtain ⟨es', h1, h2⟩ := h k es hk
  refine ⟨k, es', e, h1, h2 e he, rfl, ?_, ⟨⟨rfl, rfl⟩, rfl, le_rfl, le_rfl⟩⟩
  by_cases hl : k.langSet = 2 ^ 128 - 1
  · exact Or.inl hl
  · exact Or.inr ⟨hl, fun _ _ h => h⟩

theorem Spec.GrowsTo.raises {s s' : Store} (h : GrowsTo s s') : RaisesTo s s' := by
  obtain ⟨c, c', h1, h2, h3⟩ := h.content
  exact ⟨h.toSameKind, c, c', h1, h2, more_raised h3⟩

theorem storedAny_relev (e : GridEntry) : (storedAny e).relev ∈ [lit 0.4, lit 0.6, lit 0.8, 1] := by
  unfold storedAny
  simp only
  split <;> simp

theorem reduced_mono : ∀ x ∈ [lit 0.4, lit 0.6, lit 0.8, 1], ∀ y ∈ [lit 0.4, lit 0.6, lit 0.8, 1],
    x ≤ y → x * lit 0.96 ≤ y * lit 0.96 ∧ x * lit 0.96 ≤ y := by decide +kernel

theorem report_notWorse {opts : MatchOpts} {radius : F64} {a b : Bool} (hab : a = true → b = true)
    {e e' : GridEntry} (h : EntryNotWorse e e') :
    ResultNotWorse (report opts radius a (storedAny e)) (report opts radius b (storedAny e')) := by
  have hx : (storedAny e').x = (storedAny e).x := h.tile.1
  have hy : (storedAny e').y = (storedAny e).y := h.tile.2
  refine ⟨h.tile, h.feature, hab, ?_, ?_, h.score⟩
  · simp only [report, distanceOf]
    rw [hx, hy]
  · have hwr := withinRadius_tile (opts := opts) (radius := radius) hx hy
    obtain ⟨m1, m2⟩ := reduced_mono _ (storedAny_relev e) _ (storedAny_relev e') h.relev
    simp only [report]
    split_ifs with h1 h2 h2
    · exact h.relev
    · exact absurd (h1.imp hab hwr.2) h2
    · exact m2
    · exact m1

theorem report_scoredist {opts : MatchOpts} {radius : F64} (a b : Bool) (ho : OptsWf opts)
    (hn : NumbersOk opts radius) (hr : RadiusFits opts radius) {e e' : GridEntry} (hw : e.Wf)
    (h : EntryNotWorse e e') : (report opts radius a (storedAny e)).scoredist ≤
      (report opts radius b (storedAny e')).scoredist := by
  have hx : (storedAny e').x = e.x := h.tile.1
  have hy : (storedAny e').y = e.y := h.tile.2
  simp only [report, scoredistOf]
  obtain ⟨box, prox, zoom⟩ := opts
  cases prox with
  | none => exact F64.ofRat_mono (Nat.cast_le.2 h.score)
  | some p =>
    obtain ⟨m, rfl, hm, hm2⟩ := hr (by simp)
    obtain ⟨r, hR, hr0, -⟩ := C25_radius_ok (hn (by simp)).1 hm hm2
    obtain ⟨p1, p2⟩ := ho.2 p rfl
    simp only
    rw [hx, hy]
    exact C25_nearer_tile hR hr0 p1 p2 hw.2.1 hw.2.2.1 hw.2.1 hw.2.2.1 le_rfl h.score

/-- **C98**, queries: from an index with better entries comes a result for the same tile and feature
for every result, with no less relevance, score and score-distance. -/
theorem C98_query {c c' : Content} {s s' : Store} (hc : StoreWith c s) (hc' : StoreWith c' s')
    (hm : RaisedContent c c') (hrad : s'.radius = s.radius) (M M' : KMerger)
    (H H' : Heap QueueElement.key) (chk : Bool) {phrase : MatchPhrase} (lang : ℕ)
    (hst : phrase.start < 2 ^ 32) (hmax : phrase ≠ .exact (2 ^ 32 - 1)) (hb : ¬ FromBins s phrase)
    (hb' : ¬ FromBins s' phrase) {opts : MatchOpts} (ho : OptsWf opts) (hbf : BoxFit chk opts)
    (hn : NumbersOk opts s.radius) {n : ℕ} (hlim : ∀ ks, s.keys = some ks → ks.length ≤ n)
    (hlim' : ∀ ks, s'.keys = some ks → ks.length ≤ n) :
    ∃ out out', s.getMatching M H chk ⟨phrase, lang⟩ opts n = some out ∧
      s'.getMatching M' H' chk ⟨phrase, lang⟩ opts n = some out' ∧
      ∀ r ∈ out, ∃ r' ∈ out', ResultNotWorse r r' ∧
        (RadiusFits opts s.radius → r.scoredist ≤ r'.scoredist) := by
  obtain ⟨out, h1, h2⟩ := storeWith_query hc M H chk phrase lang hst hmax hb ho hbf hn hlim
  obtain ⟨out', h3, h4⟩ := storeWith_query hc' M' H' chk phrase lang hst hmax hb' ho hbf
    (hrad ▸ hn) hlim'
  refine ⟨out, out', h1, h3, fun r hr => ?_⟩
  obtain ⟨k, es, e, g1, g2, g3, g4, rfl⟩ := (h2 r).1 hr
  obtain ⟨k', es', e', m1, m2, m3, m4, m5⟩ := hm k es e g1 g3
  refine ⟨_, (h4 _).2 ⟨k', es', e', m1, by rw [m3]; exact g2, m2, ?_, rfl⟩, ?_⟩
  · unfold InBox at g4 ⊢
    rw [m5.tile.1, m5.tile.2]
    exact g4
  · rw [hrad]
    exact ⟨report_notWorse (langMatches_more m4) m5, fun hr =>
      report_scoredist _ _ ho hn hr (storeWith_wf hc k es g1 e g3) m5⟩

/-- **C98**, ranges answered from prefix bins. -/
theorem C98_bins {c c' : Content} {s s' : Store} (hc : StoreWith c s) (hc' : StoreWith c' s')
    (hop : AsOpened s) (hop' : AsOpened s') (hm : RaisedContent c c') (hrad : s'.radius = s.radius)
    (M M' : KMerger) (H H' : Heap QueueElement.key) (chk : Bool) {st en : ℕ} (lang : ℕ)
    (hb : st ∈ s.bounds ∧ en ∈ s.bounds) (hasc : s.bounds.Pairwise (· ≤ ·))
    (hbs : s'.bounds = s.bounds) {opts : MatchOpts} (ho : OptsWf opts) (hbf : BoxFit chk opts)
    (hn : NumbersOk opts s.radius) {n : ℕ} (hlim : s.db.length ≤ n) (hlim' : s'.db.length ≤ n) :
    ∃ out out', s.getMatching M H chk ⟨.range st en, lang⟩ opts n = some out ∧
      s'.getMatching M' H' chk ⟨.range st en, lang⟩ opts n = some out' ∧
      ∀ r ∈ out, ∃ r' ∈ out', ResultNotWorse r r' ∧
        (RadiusFits opts s.radius → r.scoredist ≤ r'.scoredist) := by
  obtain ⟨h32, out, h1, p, h2, h3⟩ := bins_query hc hop M H chk lang hb hasc ho hbf hn hlim
  obtain ⟨-, out', g1, p', g2, g3⟩ := bins_query hc' hop' M' H' chk lang (hbs ▸ hb) (hbs ▸ hasc) ho
    hbf (hrad ▸ hn) hlim'
  rw [hbs] at g2
  have hst : (MatchPhrase.range (binStart s.bounds st en) en).start < 2 ^ 32 := by
    simp only [MatchPhrase.start, binStart]
    split_ifs
    · decide
    · exact h32
  obtain ⟨p1, p1', k1, k2, k3⟩ := C98_query (s := { s with bounds := [] })
    (s' := { s' with bounds := [] }) hc hc' hm hrad M M' H H' chk lang hst nofun
    (by rintro ⟨_, _, _, h, -⟩; cases h) (by rintro ⟨_, _, _, h, -⟩; cases h) ho hbf hn
    (keys_le (s := { s with bounds := [] }) hlim) (keys_le (s := { s' with bounds := [] }) hlim')
  rw [h2] at k1
  cases k1
  rw [g2] at k2
  cases k2
  refine ⟨out, out', h1, g1, fun r hr => ?_⟩
  obtain ⟨r', hr', hw⟩ := k3 r ((h3 r).1 hr)
  exact ⟨r', (g3 r').2 hr', hw⟩

/-! ## A concrete case -/

/-- A region. -/
def smallRegion : List Call := [.append ⟨1, 1⟩ [⟨1, 3, 1, 1, 7, 0⟩]]

/-- The same region and another one, written in two goes. -/
def largeRegion : List Call :=
  [.append ⟨1, 1⟩ [⟨1, 7, 2, 2, 8, 0⟩], .append ⟨1, 1⟩ [⟨1, 3, 1, 1, 7, 0⟩]]

/-- A street. -/
def smallStreet : List Call := [.append ⟨2, 1⟩ [⟨lit 0.8, 3, 4, 4, 5, 0⟩]]

/-- The same street, and streets of other names. -/
def largeStreet : List Call :=
  [.append ⟨3, 1⟩ [⟨1, 1, 4, 4, 9, 0⟩], .append ⟨2, 1⟩ [⟨lit 0.8, 3, 4, 4, 5, 0⟩, ⟨1, 1, 8, 8, 6, 0⟩]]

/-- The index left by the calls. -/
def growthStore (cs : List Call) (zoom typeId : ℕ) : Store :=
  Store.openWith (leaves cs) zoom typeId (lit 100) [⟨0, 0, 255, 255⟩] 0

theorem append_effects {cs : List Call} (h : ∀ d ∈ cs, ∃ k es, d = .append k es)
    (hw : ∀ d ∈ cs, d.Wf) (c : Content) : Effects c cs (cs.foldl Content.call c) := by
  induction cs generalizing c with
  | nil => exact .nil c
  | cons d t ih =>
    obtain ⟨k, es, rfl⟩ := h _ List.mem_cons_self
    exact .cons rfl (ih (fun d hd => h d (List.mem_cons_of_mem _ hd))
      (fun d hd => hw d (List.mem_cons_of_mem _ hd)) _)

theorem growth_storeWith {cs : List Call} (h : ∀ d ∈ cs, ∃ k es, d = .append k es)
    (hw : ∀ d ∈ cs, d.Wf) (hf : finish .id (runAll Builder.new cs) = some (leaves cs))
    (hs : ∀ r ∈ leaves cs, r.2.length < 2 ^ 32) (zoom typeId : ℕ) :
    StoreWith (Content.run cs) (growthStore cs zoom typeId) :=
  ⟨.id, cs, hw, hf, hs, append_effects h hw _⟩

/-! ## Searches -/

theorem grown_shapes {f : Store → Store} {qs : List Subquery}
    (hf : ∀ q ∈ qs, RaisesTo q.store (f q.store)) :
    Shapes (grown f) (fun _ kg => kg) qs (qs.map (grown f)) where
  mask _ := rfl
  idx _ := rfl
  groups _ _ _ _ h _ _ := h
  nonOverlapping _ := rfl
  matchKeys q := by rw [List.map_id']; rfl
  id _ _ := rfl
  typeId q hq := (hf q hq).typeId
  zoom q hq := (hf q hq).zoom
  mem _ hq := List.mem_map_of_mem hq
  onto q hq := by
    obtain ⟨a, ha, rfl⟩ := List.mem_map.1 hq
    exact ⟨a, ha, rfl⟩

theorem grown_delivered {f : Store → Store} {qs : List Subquery} (h : Delivered qs) :
    Delivered (qs.map (grown f)) := by
  refine ⟨?_, ?_, ?_⟩
  · intro q hq
    obtain ⟨a, ha, rfl⟩ := List.mem_map.1 hq
    exact h.one a ha
  · rw [List.flatMap_map]
    exact h.ids
  · intro a ha b hb hab
    obtain ⟨a, ha', rfl⟩ := List.mem_map.1 ha
    obtain ⟨b, hb', rfl⟩ := List.mem_map.1 hb
    obtain ⟨h1, h2⟩ := h.index a ha' b hb' hab
    refine ⟨?_, h2⟩
    unfold grown
    rw [h1]

theorem grown_zooms {f : Store → Store} {qs : List Subquery}
    (hf : ∀ q ∈ qs, RaisesTo q.store (f q.store)) (h : ZoomsAscend qs) :
    ZoomsAscend (qs.map (grown f)) := by
  intro a ha b hb
  obtain ⟨a, ha', rfl⟩ := List.mem_map.1 ha
  obtain ⟨b, hb', rfl⟩ := List.mem_map.1 hb
  have := h a ha' b hb'
  unfold grown
  simp only
  rw [(hf a ha').zoom, (hf b hb').zoom, (hf a ha').typeId, (hf b hb').typeId]
  exact this

theorem grown_meets {s s' : Store} (h : RaisesTo s s') {z x y : ℕ} (hm : Meets s z x y) :
    Meets s' z x y := by
  have := h.boxes.meets hm
  unfold Meets at this ⊢
  rw [h.zoom]
  exact this

theorem grown_query {c c' : Content} {s s' : Store} (hc : StoreWith c s) (hc' : StoreWith c' s')
    (hm : RaisedContent c c') (hrad : s'.radius = s.radius) {phrase : MatchPhrase}
    (h : GrownLookup s s' phrase) (M : KMerger) (H : Heap QueueElement.key) (chk : Bool) (lang : ℕ)
    {opts : MatchOpts} (ho : OptsWf opts) (hbf : BoxFit chk opts) (hn : NumbersOk opts s.radius) :
    phrase.start < 2 ^ 32 ∧ ∃ out out',
      s.getMatching M H chk ⟨phrase, lang⟩ opts 100000 = some out ∧
      s'.getMatching M H chk ⟨phrase, lang⟩ opts 100000 = some out' ∧
      ∀ r ∈ out, ∃ r' ∈ out', ResultNotWorse r r' ∧
        (RadiusFits opts s.radius → r.scoredist ≤ r'.scoredist) := by
  rcases h with ⟨p, p'⟩ | p
  · exact ⟨p.start, C98_query hc hc' hm hrad M M H H chk lang p.start p.largest p.bins p'.bins ho hbf hn
      p.rows p'.rows⟩
  · obtain ⟨st, en, rfl, hb⟩ := p.bins
    exact ⟨(bins_query hc p.opened.1 M H chk lang hb p.ascending ho hbf hn p.rows.1).1,
      C98_bins hc hc' p.opened.1 p.opened.2 hm hrad M M H H chk lang hb p.ascending p.same ho hbf hn
        p.rows.1 p.rows.2⟩

theorem grown_weights {f : Store → Store} {qs : List Subquery} (h : WeightsPositive qs) :
    WeightsPositive (qs.map (grown f)) := by
  intro q hq
  obtain ⟨a, ha, rfl⟩ := List.mem_map.1 hq
  exact h a ha

theorem grown_improve {env : Env} {opts : MatchOpts} {f : Store → Store} {qs : List Subquery}
    (hchk : env.chk = false) (how : OptsWf opts) (hz : opts.zoom ≤ 16)
    (hf : ∀ q ∈ qs, RaisesTo q.store (f q.store))
    (hfit : ∀ q ∈ qs, q.store.radius ≠ .nan ∧ q.store.zoom ≤ 16)
    (hk : ∀ q ∈ qs, ∀ kg ∈ q.matchKeys, GrownLookup q.store (f q.store) kg.key.phrase)
    (hfew : ∀ q ∈ qs, ∀ kg ∈ q.matchKeys, ∀ gs,
      answersTo env opts (grown f q) kg 100000 = some gs → gs.length ≤ 100000) :
    Improves (· ≤ ·) env opts opts (grown f) (fun _ kg => kg) qs := by
  rintro ⟨q, kg, g⟩ hq hfa
  obtain ⟨hkm, before, after, h1, h2, h3⟩ := firstAnswer_iff.1 hfa
  simp only at hq hkm h1
  obtain ⟨c, c', w, w', hm⟩ := (hf q hq).content
  obtain ⟨hrad, hzq⟩ := hfit q hq
  obtain ⟨l1, o1, z1⟩ := lookupOpts_release hchk how hz hzq kg
  have l2 : lookupOpts env opts (grown f q) kg = some (keyLookup opts q kg) := by
    have : lookupOpts env opts (grown f q) kg = lookupOpts env opts q kg := by
      unfold lookupOpts grown
      simp only
      rw [(hf q hq).zoom]
    rw [this, l1]
  generalize keyLookup opts q kg = o at l1 l2 o1 z1
  have hbf : BoxFit env.chk o := by rw [hchk]; exact boxFit_false o
  have hn : NumbersOk o q.store.radius := fun _ => ⟨z1, hrad⟩
  have hn' : NumbersOk o (f q.store).radius := by rw [(hf q hq).radius]; exact hn
  obtain ⟨hst, gs, gs', g1, g2, g3⟩ := grown_query w w' hm (hf q hq).radius (hk q hq kg hkm)
    env.merger env.rows env.chk kg.key.langSet o1 hbf hn
  have a1 : answersTo env opts q kg 100000 = some gs := answersTo_some.2 ⟨o, l1, g1⟩
  have a2 : answersTo env opts (grown f q) kg 100000 = some gs' := answersTo_some.2 ⟨o, l2, g2⟩
  rw [a1] at h1
  cases h1
  have hs := C22_relevance_partial _ w'.laid (f q.store) rfl env.merger env.rows env.chk
    ⟨kg.key.phrase, kg.key.langSet⟩ hst o o1 hn' _ (by norm_num) gs' g2
  obtain ⟨g', m1, m2, -⟩ := g3 g (by simp)
  obtain ⟨before', g'', after', rfl, n1, n2⟩ := exists_first m1
  have hlen := hfew q hq kg hkm _ a2
  rw [List.length_append, List.length_cons] at hlen
  refine ⟨g'', firstAnswer_iff.2 ⟨hkm, before', after', a2, by omega, n2⟩,
    ⟨n1.1.trans m2.tile.1, n1.2.1.trans m2.tile.2, n1.2.2.trans m2.feature⟩,
    m2.relev.trans (first_is_best hs n2 m1 n1)⟩

/-- **C98**, `stack_and_coalesce`: when indexes hold better entries, every context comes back with the same
tiles, features and phrase matches, and at least its relevance. Left out are contexts of one phrase
match nothing can be put below, which compete for 40 places. -/
theorem C98_search {env : TreeEnv} (hchk : env.chk = false) {qs : List Subquery} {opts : MatchOpts}
    (how : OptsWf opts) (hz16 : opts.zoom ≤ 16) {f : Store → Store}
    (hf : ∀ q ∈ qs, RaisesTo q.store (f q.store))
    (hfit : ∀ q ∈ qs, q.store.radius ≠ .nan ∧ q.store.zoom ≤ 16)
    (hk : ∀ q ∈ qs, ∀ kg ∈ q.matchKeys, GrownLookup q.store (f q.store) kg.key.phrase)
    (hans : ∀ q ∈ qs, ∀ kg ∈ q.matchKeys, ∀ gs,
      answersTo env.toEnv opts (grown f q) kg 100000 = some gs → gs.length ≤ 100000)
    (hd : Delivered qs) (hfew : FewGroupStacks 2000 qs) (hz : ZoomsAscend qs)
    (hroom : RoomForGroups qs) (hw : WeightsPositive qs) {out out' : List Context}
    (hout : stackAndCoalesce env qs opts = some out)
    (hout' : stackAndCoalesce env (qs.map (grown f)) opts = some out') (hlen : Short out') :
    ∀ c ∈ out, LoneResult env.toEnv opts qs c ∨ ∃ c' ∈ out', ContextNotWorse c c' := by
  intro c hc
  have hsh := grown_shapes hf
  rcases C91_sound hd hfew (Or.inr hz) hout c hc with ⟨hs', h1, h2, h3⟩ | h
  · right
    obtain ⟨c', r1, r2⟩ := better_returned hsh (Or.inl rfl) hw (grown_weights hw)
      (fun _ _ => le_refl _)
      (grown_improve hchk how hz16 hf hfit hk hans)
      (fun q hq _ _ _ h => grown_meets (hf q hq) h) h1 h2 h3
    exact ⟨c', C91_complete (grown_delivered hd) (hsh.few hfew) (Or.inr (grown_zooms hf hz))
      (hsh.room
      ⟨fun _ _ => rfl, fun _ _ => rfl, fun _ _ _ _ h => h⟩ hroom) hout' hlen c' r1, r2.up⟩
  · exact Or.inl h

/-- **C93**, `stack_and_coalesce`: when indexes hold more, every context comes back with the same
tiles, features and phrase matches, and at least its relevance. Left out are contexts of one phrase
match nothing can be put below, which compete for 40 places. -/
theorem C93_search {env : TreeEnv} (hchk : env.chk = false) {qs : List Subquery} {opts : MatchOpts}
    (how : OptsWf opts) (hz16 : opts.zoom ≤ 16) {f : Store → Store}
    (hf : ∀ q ∈ qs, GrowsTo q.store (f q.store))
    (hfit : ∀ q ∈ qs, q.store.radius ≠ .nan ∧ q.store.zoom ≤ 16)
    (hk : ∀ q ∈ qs, ∀ kg ∈ q.matchKeys, GrownLookup q.store (f q.store) kg.key.phrase)
    (hans : ∀ q ∈ qs, ∀ kg ∈ q.matchKeys, ∀ gs,
      answersTo env.toEnv opts (grown f q) kg 100000 = some gs → gs.length ≤ 100000)
    (hd : Delivered qs) (hfew : FewGroupStacks 2000 qs) (hz : ZoomsAscend qs)
    (hroom : RoomForGroups qs) (hw : WeightsPositive qs) {out out' : List Context}
    (hout : stackAndCoalesce env qs opts = some out)
    (hout' : stackAndCoalesce env (qs.map (grown f)) opts = some out') (hlen : Short out') :
    ∀ c ∈ out, LoneResult env.toEnv opts qs c ∨ ∃ c' ∈ out', ContextNotWorse c c' :=
  C98_search hchk how hz16 (fun q hq => (hf q hq).raises) hfit hk hans hd hfew hz hroom hw hout hout'
    hlen

theorem smallRegion_with : StoreWith (Content.run smallRegion) (growthStore smallRegion 6 0) := by
  refine growth_storeWith ?_ ?_ (by decide +kernel) (by decide +kernel) _ _ <;> intro d hd <;>
    simp only [smallRegion, List.mem_cons, List.not_mem_nil, or_false] at hd
  · exact ⟨_, _, hd⟩
  · subst hd
    simp [Call.Wf, GridKey.Wf, GridEntry.Wf]

theorem largeRegion_with : StoreWith (Content.run largeRegion) (growthStore largeRegion 6 0) := by
  refine growth_storeWith ?_ ?_ (by decide +kernel) (by decide +kernel) _ _ <;> intro d hd <;>
    simp only [largeRegion, List.mem_cons, List.not_mem_nil, or_false] at hd
  · rcases hd with rfl | rfl <;> exact ⟨_, _, rfl⟩
  · rcases hd with rfl | rfl <;> simp [Call.Wf, GridKey.Wf, GridEntry.Wf]

theorem smallStreet_with : StoreWith (Content.run smallStreet) (growthStore smallStreet 8 1) := by
  refine growth_storeWith ?_ ?_ (by decide +kernel) (by decide +kernel) _ _ <;> intro d hd <;>
    simp only [smallStreet, List.mem_cons, List.not_mem_nil, or_false] at hd
  · exact ⟨_, _, hd⟩
  · subst hd
    simp [Call.Wf, GridKey.Wf, GridEntry.Wf]

theorem largeStreet_with : StoreWith (Content.run largeStreet) (growthStore largeStreet 8 1) := by
  refine growth_storeWith ?_ ?_ (by decide +kernel) (by decide +kernel) _ _ <;> intro d hd <;>
    simp only [largeStreet, List.mem_cons, List.not_mem_nil, or_false] at hd
  · rcases hd with rfl | rfl <;> exact ⟨_, _, rfl⟩
  · rcases hd with rfl | rfl <;> simp [Call.Wf, GridKey.Wf, GridEntry.Wf]

theorem region_more : MoreContent (Content.run smallRegion) (Content.run largeRegion) := by
  intro k es h
  simp only [smallRegion, largeRegion, Content.run, List.foldl_cons, List.foldl_nil, Content.call,
    Content.set] at h ⊢
  by_cases hk : k = ⟨1, 1⟩
  · subst hk
    simp only [if_true] at h ⊢
    cases h
    exact ⟨_, rfl, by simp⟩
  · simp [hk] at h

theorem street_more : MoreContent (Content.run smallStreet) (Content.run largeStreet) := by
  intro k es h
  simp only [smallStreet, largeStreet, Content.run, List.foldl_cons, List.foldl_nil, Content.call,
    Content.set] at h ⊢
  by_cases hk : k = ⟨2, 1⟩
  · subst hk
    simp only [if_true] at h ⊢
    cases h
    exact ⟨_, rfl, by simp⟩
  · simp [hk] at h

/-- The indexes grow. -/
def growthOf (s : Store) : Store :=
  if s.typeId = 0 then growthStore largeRegion 6 0 else growthStore largeStreet 8 1

/-- The phrase matches. -/
def growthMatches : List Subquery :=
  [⟨growthStore smallRegion 6 0, 0, [], lit 0.5, 1, [⟨⟨.exact 1, 1⟩, false, 0, 5⟩]⟩,
    ⟨growthStore smallStreet 8 1, 1, [], lit 0.5, 2, [⟨⟨.exact 2, 1⟩, false, 1, 5⟩]⟩]

theorem growth_grows : ∀ q ∈ growthMatches, GrowsTo q.store (growthOf q.store) := by
  intro q hq
  simp only [growthMatches, List.mem_cons, List.not_mem_nil, or_false] at hq
  rcases hq with rfl | rfl
  · exact ⟨⟨rfl, rfl, rfl, fun b hb => ⟨b, hb, le_rfl, le_rfl, le_rfl, le_rfl⟩⟩,
      _, _, smallRegion_with, largeRegion_with, region_more⟩
  · exact ⟨⟨rfl, rfl, rfl, fun b hb => ⟨b, hb, le_rfl, le_rfl, le_rfl, le_rfl⟩⟩,
      _, _, smallStreet_with, largeStreet_with, street_more⟩

theorem growth_plain {s : Store} {p : ℕ} (hp : p < 2 ^ 32 - 1)
    (hr : (s.keys.map List.length).getD 0 ≤ 100000) : PlainLookup s (.exact p) := by
  refine ⟨by simp only [MatchPhrase.start]; omega, ?_, ?_, ?_⟩
  · intro h
    cases h
    omega
  · rintro ⟨_, _, h, -⟩
    cases h
  · intro ks h
    rw [h] at hr
    exact hr

example : ∃ out out', stackAndCoalesce (listTreeEnv false) growthMatches plainOpts = some out ∧
    stackAndCoalesce (listTreeEnv false) (growthMatches.map (grown growthOf)) plainOpts = some out' ∧
    (∃ c ∈ out, c.entries.length = 2) ∧ out.length < out'.length ∧
    ∀ c ∈ out, LoneResult (listTreeEnv false).toEnv plainOpts growthMatches c ∨
      ∃ c' ∈ out', ContextNotWorse c c' := by
  have h1 : (stackAndCoalesce (listTreeEnv false) growthMatches plainOpts).map (fun out =>
      decide (out.length ≤ 3 ∧ ∃ c ∈ out, c.entries.length = 2)) = some true := by decide +kernel
  have h2 : (stackAndCoalesce (listTreeEnv false) (growthMatches.map (grown growthOf)) plainOpts).map
      (fun out => decide (out.length < 40 ∧ 3 < out.length)) = some true := by decide +kernel
  obtain ⟨out, h1, h3⟩ := Option.map_eq_some_iff.1 h1
  obtain ⟨out', h2, h4⟩ := Option.map_eq_some_iff.1 h2
  obtain ⟨h3, h5⟩ := of_decide_eq_true h3
  obtain ⟨h4, h6⟩ := of_decide_eq_true h4
  refine ⟨out, out', h1, h2, h5, by omega, ?_⟩
  refine C93_search rfl ⟨by decide, by decide⟩ (by decide) growth_grows (by decide +kernel) ?_ ?_
    ⟨by decide +kernel, by decide +kernel, by decide +kernel⟩ (few_of_small (by decide +kernel))
    (by unfold ZoomsAscend; decide +kernel) (room_of_small (by decide +kernel) (by decide +kernel) ?_)
    (by unfold WeightsPositive; decide +kernel) h1 h2 (short_of_few h4)
  · intro q hq kg hk
    simp only [growthMatches, List.mem_cons, List.not_mem_nil, or_false] at hq
    rcases hq with rfl | rfl <;> rw [List.mem_singleton.1 hk] <;>
      exact Or.inl ⟨growth_plain (by norm_num) (by decide +kernel),
        growth_plain (by norm_num) (by decide +kernel)⟩
  · intro q hq kg hk gs hgs
    simp only [growthMatches, List.mem_cons, List.not_mem_nil, or_false] at hq
    rcases hq with rfl | rfl <;> rw [List.mem_singleton.1 hk] at hgs <;>
    · have : ∀ x : Option (List MatchEntry), x.map List.length = some 2 → x = some gs →
          gs.length ≤ 100000 := by
        rintro x hx rfl
        simp only [Option.map_some, Option.some.injEq] at hx
        omega
      exact this _ (by decide +kernel) hgs
  · intro q hq kg hk
    simp only [growthMatches, List.mem_cons, List.not_mem_nil, or_false] at hq
    rcases hq with rfl | rfl <;> exact ⟨_, by rw [List.mem_singleton.1 hk]⟩

/-- A query on the two street indexes. -/
example : ∃ out out',
    (growthStore smallStreet 8 1).getMatching listMerger (listHeap _) true ⟨.exact 2, 1⟩ plainOpts 9 =
      some out ∧
    (growthStore largeStreet 8 1).getMatching listMerger (listHeap _) true ⟨.exact 2, 1⟩ plainOpts 9 =
      some out' ∧ (∀ r ∈ out, r ∈ out') ∧ out.length = 1 ∧ out'.length = 2 := by
  have h1 : ((growthStore smallStreet 8 1).getMatching listMerger (listHeap _) true ⟨.exact 2, 1⟩
      plainOpts 9).map List.length = some 1 := by decide +kernel
  have h2 : ((growthStore largeStreet 8 1).getMatching listMerger (listHeap _) true ⟨.exact 2, 1⟩
      plainOpts 9).map List.length = some 2 := by decide +kernel
  have hk : ∀ {s : Store} {n : ℕ}, (s.keys.map List.length).getD 0 ≤ n →
      ∀ ks, s.keys = some ks → ks.length ≤ n := by
    intro s n hn ks h
    rw [h] at hn
    exact hn
  obtain ⟨out, out', g1, g2, g3⟩ := C93_query smallStreet_with largeStreet_with street_more rfl
    listMerger listMerger (listHeap _) (listHeap _) true (phrase := .exact 2) 1 (by decide)
    (by decide) (by rintro ⟨_, _, h, -⟩; cases h) (by rintro ⟨_, _, h, -⟩; cases h)
    (opts := plainOpts) ⟨by decide, by decide⟩ (fun _ => by simp [plainOpts])
    (fun h => by simp [plainOpts] at h) (n := 9) (hk (by decide +kernel)) (hk (by decide +kernel))
  rw [g1] at h1
  rw [g2] at h2
  exact ⟨out, out', g1, g2, g3, by simpa using h1, by simpa using h2⟩

/-- The street of `smallStreet` with more relevance, a higher score, from another source and in two
languages. -/
def raisedStreet : List Call := [.append ⟨2, 5⟩ [⟨1, 7, 4, 4, 5, 9⟩]]

theorem raisedStreet_with : StoreWith (Content.run raisedStreet) (growthStore raisedStreet 8 1) := by
  refine growth_storeWith ?_ ?_ (by decide +kernel) (by decide +kernel) _ _ <;> intro d hd <;>
    simp only [raisedStreet, List.mem_cons, List.not_mem_nil, or_false] at hd
  · exact ⟨_, _, hd⟩
  · subst hd
    simp [Call.Wf, GridKey.Wf, GridEntry.Wf]

theorem street_raised : RaisedContent (Content.run smallStreet) (Content.run raisedStreet) := by
  intro k es e h he
  simp only [smallStreet, raisedStreet, Content.run, List.foldl_cons, List.foldl_nil, Content.call,
    Content.set, Option.getD_none, List.nil_append] at h ⊢
  split_ifs at h with hk
  cases h
  rw [List.mem_singleton] at he
  subst hk he
  refine ⟨⟨2, 5⟩, _, ⟨1, 7, 4, 4, 5, 9⟩, by rw [if_pos rfl], by simp, rfl, Or.inr ⟨by decide, ?_⟩,
    ⟨⟨rfl, rfl⟩, by decide +kernel, by decide +kernel, by decide +kernel⟩⟩
  intro i hi
  revert i
  decide

example : ∃ out out',
    (growthStore smallStreet 8 1).getMatching listMerger (listHeap _) true ⟨.exact 2, 1⟩ plainOpts 9 =
      some out ∧
    (growthStore raisedStreet 8 1).getMatching listMerger (listHeap _) true ⟨.exact 2, 1⟩ plainOpts 9 =
      some out' ∧ (∀ r ∈ out, ∃ r' ∈ out', ResultNotWorse r r' ∧
        (RadiusFits plainOpts (lit 100) → r.scoredist ≤ r'.scoredist)) ∧ out.length = 1 := by
  have h1 : ((growthStore smallStreet 8 1).getMatching listMerger (listHeap _) true ⟨.exact 2, 1⟩
      plainOpts 9).map List.length = some 1 := by decide +kernel
  obtain ⟨out, out', g1, g2, g3⟩ := C98_query smallStreet_with raisedStreet_with street_raised rfl
    listMerger listMerger (listHeap _) (listHeap _) true (phrase := .exact 2) 1 (by decide)
    (by decide) (by rintro ⟨_, _, h, -⟩; cases h) (by rintro ⟨_, _, h, -⟩; cases h)
    (opts := plainOpts) ⟨by decide, by decide⟩ (fun _ => by simp [plainOpts])
    (fun h => by simp [plainOpts] at h) (n := 9) (keys_le (by decide +kernel))
    (keys_le (by decide +kernel))
  rw [g1] at h1
  exact ⟨out, out', g1, g2, g3, by simpa using h1⟩

/-- The index of streets gets better. -/
def raiseOf (s : Store) : Store := if s.typeId = 0 then s else growthStore raisedStreet 8 1

theorem growth_raises : ∀ q ∈ growthMatches, RaisesTo q.store (raiseOf q.store) := by
  intro q hq
  simp only [growthMatches, List.mem_cons, List.not_mem_nil, or_false] at hq
  rcases hq with rfl | rfl
  · exact ⟨⟨rfl, rfl, rfl, fun b hb => ⟨b, hb, le_rfl, le_rfl, le_rfl, le_rfl⟩⟩,
      _, _, smallRegion_with, smallRegion_with, more_raised fun _ _ h => ⟨_, h, fun _ h => h⟩⟩
  · exact ⟨⟨rfl, rfl, rfl, fun b hb => ⟨b, hb, le_rfl, le_rfl, le_rfl, le_rfl⟩⟩,
      _, _, smallStreet_with, raisedStreet_with, street_raised⟩

example : ∃ out out', stackAndCoalesce (listTreeEnv false) growthMatches plainOpts = some out ∧
    stackAndCoalesce (listTreeEnv false) (growthMatches.map (grown raiseOf)) plainOpts = some out' ∧
    (∃ c ∈ out, c.entries.length = 2) ∧
    ∀ c ∈ out, LoneResult (listTreeEnv false).toEnv plainOpts growthMatches c ∨
      ∃ c' ∈ out', ContextNotWorse c c' := by
  have h1 : (stackAndCoalesce (listTreeEnv false) growthMatches plainOpts).map (fun out =>
      decide (∃ c ∈ out, c.entries.length = 2)) = some true := by decide +kernel
  have h2 : (stackAndCoalesce (listTreeEnv false) (growthMatches.map (grown raiseOf)) plainOpts).map
      (fun out => decide (out.length < 40)) = some true := by decide +kernel
  obtain ⟨out, h1, h3⟩ := Option.map_eq_some_iff.1 h1
  obtain ⟨out', h2, h4⟩ := Option.map_eq_some_iff.1 h2
  refine ⟨out, out', h1, h2, of_decide_eq_true h3, ?_⟩
  refine C98_search rfl ⟨by decide, by decide⟩ (by decide) growth_raises (by decide +kernel) ?_ ?_
    ⟨by decide +kernel, by decide +kernel, by decide +kernel⟩ (few_of_small (by decide +kernel))
    (by unfold ZoomsAscend; decide +kernel) (room_of_small (by decide +kernel) (by decide +kernel) ?_)
    (by unfold WeightsPositive; decide +kernel) h1 h2 (short_of_few (of_decide_eq_true h4))
  · intro q hq kg hk
    simp only [growthMatches, List.mem_cons, List.not_mem_nil, or_false] at hq
    rcases hq with rfl | rfl <;> rw [List.mem_singleton.1 hk] <;>
      exact Or.inl ⟨growth_plain (by norm_num) (by decide +kernel),
        growth_plain (by norm_num) (by decide +kernel)⟩
  · intro q hq kg hk gs hgs
    simp only [growthMatches, List.mem_cons, List.not_mem_nil, or_false] at hq
    rcases hq with rfl | rfl <;> rw [List.mem_singleton.1 hk] at hgs <;>
    · have : ∀ x : Option (List MatchEntry), x.map List.length = some 1 → x = some gs →
          gs.length ≤ 100000 := by
        rintro x hx rfl
        simp only [Option.map_some, Option.some.injEq] at hx
        omega
      exact this _ (by decide +kernel) hgs
  · intro q hq kg hk
    simp only [growthMatches, List.mem_cons, List.not_mem_nil, or_false] at hq
    rcases hq with rfl | rfl <;> exact ⟨_, by rw [List.mem_singleton.1 hk]⟩

/-- One feature. -/
def oneCall : List Call := [.append ⟨1, 1⟩ [⟨1, 1, 0, 0, 1000, 0⟩]]

/-- The same feature and 40 of higher scores. -/
def crowdCalls : List Call :=
  [.append ⟨1, 1⟩ [⟨1, 1, 0, 0, 1000, 0⟩],
    .append ⟨1, 1⟩ ((List.range 40).map fun i => ⟨1, 7, i, 1, i + 1, 0⟩)]

/-- A phrase match in the index left by the calls. -/
def crowdMatch (cs : List Call) : Subquery :=
  ⟨growthStore cs 6 0, 0, [], 1, 1, [⟨⟨.exact 1, 1⟩, false, 0, 5⟩]⟩

/-- C93 cannot say it of contexts of one phrase match nothing can be put below: 40 features with
higher scores take all places. -/
theorem C93_lone_overtaken : ∃ out out',
    stackAndCoalesce (listTreeEnv false) [crowdMatch oneCall] plainOpts = some out ∧
    stackAndCoalesce (listTreeEnv false) [crowdMatch crowdCalls] plainOpts = some out' ∧
    (∃ c ∈ out, c.first.entry.id = 1000) ∧ ∀ c ∈ out', c.first.entry.id ≠ 1000 := by
  have h1 : (stackAndCoalesce (listTreeEnv false) [crowdMatch oneCall]
      plainOpts).map (fun out => decide (∃ c ∈ out, c.first.entry.id = 1000)) = some true := by
    decide +kernel
  have h2 : (stackAndCoalesce (listTreeEnv false) [crowdMatch crowdCalls]
      plainOpts).map (fun out => decide (∀ c ∈ out, c.first.entry.id ≠ 1000)) = some true := by
    decide +kernel
  obtain ⟨out, h1, h3⟩ := Option.map_eq_some_iff.1 h1
  obtain ⟨out', h2, h4⟩ := Option.map_eq_some_iff.1 h2
  exact ⟨out, out', h1, h2, of_decide_eq_true h3, of_decide_eq_true h4⟩

end Carmen

import Verif.Spec.Wider
import Verif.Props.SameBox
import Verif.Props.LanguagesSearch

/-!
# C100: a wider box takes nothing away, and what it adds lies outside
-/

namespace Carmen
open Format Spec Builder

theorem inBox_iff {opts : MatchOpts} {e : GridEntry} : InBox opts e ↔
    ∀ b, opts.bbox = some b → b.minX ≤ e.x ∧ e.x ≤ b.maxX ∧ b.minY ≤ e.y ∧ e.y ≤ b.maxY := by
  unfold InBox
  cases opts.bbox <;> simp

theorem report_box {opts opts' : MatchOpts} (hb : SameButBox opts opts') (radius : F64) (l : Bool)
    (e : GridEntry) : report opts' radius l e = report opts radius l e := by
  cases opts
  cases opts'
  obtain ⟨h1, h2⟩ := hb
  simp only at h1 h2
  subst h1
  subst h2
  rfl

/-- **C100**, for queries: what is found in the smaller box is what is found in the wider one, less what
lies outside. -/
theorem C100_query {s : Store} (hd : LaidOut s.db) (M : KMerger) (H : Heap QueueElement.key)
    {chk : Bool} {mk : MatchKey} (hst : mk.phrase.start < 2 ^ 32) {opts opts' : MatchOpts}
    (hb : SameButBox opts opts') (hin : ∀ e, InBox opts e → InBox opts' e)
    (ho : OptsWf opts) (ho' : OptsWf opts') (hbf : BoxFit chk opts) (hbf' : BoxFit chk opts')
    (hn : NumbersOk opts s.radius) {n : ℕ} (hlim : s.db.length ≤ n) {out : List MatchEntry}
    (hout : s.getMatching M H chk mk opts n = some out) :
    ∃ out', s.getMatching M H chk mk opts' n = some out' ∧
      out.Perm (out'.filter fun r => decide (InBox opts r.entry)) := by
  have hn' : NumbersOk opts' s.radius := by
    unfold NumbersOk at hn ⊢
    rw [← hb.point, ← hb.zoom]
    exact hn
  obtain ⟨⟨st, en, m⟩, hp⟩ : ∃ plan, s.fetchPlan chk mk.phrase = some plan := by
    cases h : s.fetchPlan chk mk.phrase with
    | some p => exact ⟨p, rfl⟩
    | none =>
      unfold Store.getMatching Store.queryRows at hout
      rw [h] at hout
      simp at hout
  have hst' := fetchPlan_start hp hst
  obtain ⟨o1, a1, a2, -⟩ := getMatching_all (M := M) (H := H) (n := n) (opts := opts)
    (queryRows_eq hd rfl hp hst') _ (rowElement_rows hd ho hbf hn M mk)
    ((List.length_filter_le _ _).trans hlim)
  obtain ⟨o2, b1, b2, -⟩ := getMatching_all (M := M) (H := H) (n := n) (opts := opts')
    (queryRows_eq hd rfl hp hst') _ (rowElement_rows hd ho' hbf' hn' M mk)
    ((List.length_filter_le _ _).trans hlim)
  rw [hout] at a1
  cases a1
  refine ⟨o2, b1, a2.trans (List.Perm.trans ?_ (b2.filter _).symm)⟩
  rw [List.filter_flatMap]
  refine List.Perm.flatMap_left _ fun r hr => ?_
  obtain ⟨rec, k, v, es, hk, hv, hsh, rfl, h1, h2, hes, -, -, hperm⟩ :=
    row_answers hd ho hbf hn M mk hr
  obtain ⟨_, k', v', es', hk', -, -, e, -, -, hes', -, -, hperm'⟩ :=
    row_answers hd ho' hbf' hn' M mk hr
  have hkk : k = k' := (dbKey_inj hk hk' (congrArg Prod.fst e)).2
  subst hkk
  rw [hes] at hes'
  cases hes'
  refine hperm.trans (List.Perm.trans (List.Perm.of_eq ?_) (hperm'.filter _).symm)
  rw [List.filter_map, List.filter_filter]
  refine (List.map_congr_left fun e _ => (report_box hb _ _ e).symm).trans ?_
  congr 1
  refine List.filter_congr fun e _ => ?_
  have hx : InBox opts (report opts' s.radius (langMatches mk.langSet k.langSet) e).entry ↔
      InBox opts e := by rw [inBox_iff, inBox_iff]; rfl
  rw [Bool.eq_iff_iff]
  simp only [Function.comp_apply, Bool.and_eq_true, decide_eq_true_eq]
  exact ⟨fun h => ⟨hx.2 h, hin e h⟩, fun h => hx.1 h.1⟩

/-! ## Searches -/

theorem touches_some (z x y : ℕ) : ∃ u v, InTile z (x, y) u v := by
  have h : (2 : ℚ) ^ z ≠ 0 := by positivity
  refine ⟨x / 2 ^ z, y / 2 ^ z, ?_⟩
  unfold InTile
  rw [div_mul_cancel₀ _ h, div_mul_cancel₀ _ h]
  simp

theorem touchesGround_iff {opts : MatchOpts} {z x y : ℕ} : TouchesGround opts z x y ↔
    ∃ u v, InTile z (x, y) u v ∧ OnGround opts u v := by
  unfold TouchesGround OnGround
  cases h : opts.bbox with
  | none =>
    obtain ⟨u, v, huv⟩ := touches_some z x y
    simp only [reduceCtorEq, false_implies, implies_true, and_true, true_iff]
    exact ⟨u, v, huv⟩
  | some b =>
    simp only [Option.some.injEq, forall_eq']
    rfl

theorem Spec.WiderGround.touches {opts opts' : MatchOpts} (h : WiderGround opts opts') {z x y : ℕ}
    (ht : TouchesGround opts z x y) : TouchesGround opts' z x y := by
  rw [touchesGround_iff] at ht ⊢
  obtain ⟨u, v, h1, h2⟩ := ht
  exact ⟨u, v, h1, h.ground u v h2⟩

/-- A tile that contains one that has ground in common has it too. -/
theorem touchesGround_above {opts : MatchOpts} {a b : ℕ × ℕ × ℕ} (h : TileContains a b)
    (ht : TouchesGround opts b.1 b.2.1 b.2.2) : TouchesGround opts a.1 a.2.1 a.2.2 := by
  rw [touchesGround_iff] at ht ⊢
  obtain ⟨u, v, ⟨h1, h2, h3, h4⟩, h5⟩ := ht
  refine ⟨u, v, ?_, h5⟩
  obtain ⟨z, x, y⟩ := a
  obtain ⟨z', x', y'⟩ := b
  obtain ⟨hz, hx, hy⟩ := h
  simp only at hz hx hy h1 h2 h3 h4 ⊢
  obtain ⟨d, rfl⟩ := Nat.exists_eq_add_of_le hz
  rw [Nat.add_sub_cancel_left] at hx hy
  have key : ∀ (w : ℚ) (n m : ℕ), (n : ℚ) ≤ w * 2 ^ (z + d) → w * 2 ^ (z + d) < n + 1 →
      m = n / 2 ^ d → (m : ℚ) ≤ w * 2 ^ z ∧ w * 2 ^ z < m + 1 := by
    intro w n m k1 k2 hm
    have hp : (0 : ℚ) < 2 ^ d := by positivity
    have e : w * 2 ^ (z + d) = w * 2 ^ z * 2 ^ d := by rw [pow_add]; ring
    rw [e] at k1 k2
    have l1 : m * 2 ^ d ≤ n := by rw [hm]; exact Nat.div_mul_le_self _ _
    have l2 : n + 1 ≤ (m + 1) * 2 ^ d := by
      rw [hm]
      exact Nat.lt_mul_of_div_lt (Nat.lt_succ_self _) (by positivity)
    have l1' : (m : ℚ) * 2 ^ d ≤ n := by exact_mod_cast l1
    have l2' : (n : ℚ) + 1 ≤ (m + 1) * 2 ^ d := by exact_mod_cast l2
    exact ⟨le_of_mul_le_mul_right (l1'.trans k1) hp, lt_of_mul_lt_mul_right (k2.trans_le l2') hp.le⟩
  obtain ⟨a1, a2⟩ := key u x' x h1 h2 hx
  obtain ⟨b1, b2⟩ := key v y' y h3 h4 hy
  exact ⟨a1, a2, b1, b2⟩

theorem hit_touches {opts : MatchOpts} {h h' : Hit} (hc : TileContains h.tile h'.tile)
    (ht : TouchesGround opts h'.q.store.zoom h'.grid.entry.x h'.grid.entry.y) :
    TouchesGround opts h.q.store.zoom h.grid.entry.x h.grid.entry.y :=
  touchesGround_above (a := h.tile) (b := h'.tile) hc ht

theorem hits_touch {opts : MatchOpts} {last : Hit} : ∀ {above : List Hit},
    (above ++ [last]).IsChain (fun a b => TileContains a.tile b.tile) →
    TouchesGround opts last.q.store.zoom last.grid.entry.x last.grid.entry.y →
    ∀ h ∈ above ++ [last], TouchesGround opts h.q.store.zoom h.grid.entry.x h.grid.entry.y
  | [], _, ht => by
    intro h hh
    rw [List.nil_append, List.mem_singleton] at hh
    rw [hh]
    exact ht
  | a :: t, hch, ht => by
    rw [List.cons_append] at hch ⊢
    have hrest := hits_touch (above := t) hch.tail ht
    refine List.forall_mem_cons.2 ⟨?_, hrest⟩
    cases t with
    | nil =>
      rw [List.nil_append, List.isChain_pair] at hch
      exact hit_touches hch ht
    | cons b t =>
      rw [List.cons_append, List.isChain_cons_cons] at hch
      exact hit_touches hch.1 (hrest b List.mem_cons_self)

theorem nearby_box {o o' : MatchOpts} (hb : SameButBox o o') {e : GridEntry} {P : Prop}
    (h : InBox o e ↔ InBox o' e ∧ P) :
    SameButBox o.withNearbyOnly o'.withNearbyOnly ∧
      (InBox o.withNearbyOnly e ↔ InBox o'.withNearbyOnly e ∧ P) := by
  obtain ⟨a1, a2⟩ := nearby_point o
  obtain ⟨b1, b2⟩ := nearby_point o'
  refine ⟨⟨by rw [a2, b2, hb.point], by rw [a1, b1, hb.zoom]⟩, ?_⟩
  rw [inBox_iff, inBox_iff] at h ⊢
  unfold MatchOpts.withNearbyOnly
  rw [← hb.point, ← hb.zoom]
  cases hp : o.proximity with
  | none => exact h
  | some p =>
    dsimp only
    cases h1 : o.bbox <;> cases h2 : o'.bbox <;> rw [h1, h2] at h <;>
      simp only [Option.some.injEq, forall_eq', max_le_iff, le_min_iff, reduceCtorEq, false_implies,
        implies_true, true_and, true_iff, iff_true] at h ⊢ <;> tauto

theorem keyLookup_wider {opts opts' : MatchOpts} (hs : SoundOpts opts) (hs' : SoundOpts opts')
    (hw : WiderGround opts opts') {q : Subquery} (hz : ZoomFits opts q.store) (kg : KeyWithId) :
    SameButBox (keyLookup opts q kg) (keyLookup opts' q kg) ∧ ∀ e, InBox (keyLookup opts q kg) e ↔
      InBox (keyLookup opts' q kg) e ∧ TouchesGround opts q.store.zoom e.x e.y := by
  have hz' : ZoomFits opts' q.store := by
    unfold ZoomFits at hz ⊢
    rw [← hw.zoom]
    exact hz
  have hadj : ∀ e, InBox (opts.adjustToZoom q.store.zoom) e ↔
      InBox (opts'.adjustToZoom q.store.zoom) e ∧ TouchesGround opts q.store.zoom e.x e.y := by
    intro e
    rw [inBox_iff, inBox_iff, adjusted_in hs hz, adjusted_in hs' hz']
    exact ⟨fun h => ⟨hw.touches h, h⟩, fun h => h.2⟩
  have hsame := adjusted_same hw.toSameButBox q.store.zoom
  unfold keyLookup
  split_ifs
  · exact ⟨(nearby_box hsame (hadj ⟨0, 0, 0, 0, 0, 0⟩)).1, fun e => (nearby_box hsame (hadj e)).2⟩
  · exact ⟨hsame, hadj⟩

section
variable {env : Env} {opts opts' : MatchOpts} {qs : List Subquery}

theorem wider_answers (hchk : env.chk = false) (hso : SoundOpts opts) (hso' : SoundOpts opts')
    (hw : WiderGround opts opts') (hs : SmallLookups env opts' qs)
    (hzf : ∀ q ∈ qs, ZoomFits opts q.store) {q : Subquery} (hq : q ∈ qs) {kg : KeyWithId}
    (hk : kg ∈ q.matchKeys) :
    ∃ gs gs' o radius, answersTo env opts q kg 100000 = some gs ∧
      answersTo env opts' q kg 100000 = some gs' ∧ gs.length ≤ 100000 ∧ gs'.length ≤ 100000 ∧
      gs.Pairwise (NotWorse o radius) ∧ gs'.Pairwise (NotWorse o radius) ∧
      ∀ g, g ∈ gs ↔ g ∈ gs' ∧ TouchesGround opts q.store.zoom g.entry.x g.entry.y := by
  obtain ⟨hfit, hrows⟩ := hs.index _ hq
  have hst := hs.key _ hq _ hk
  obtain ⟨hbb, hin⟩ := keyLookup_wider hso hso' hw (hzf q hq) kg
  obtain ⟨l1, w1, z1⟩ := lookupOpts_release hchk hso.wf hso.zoom hfit.zoom kg
  obtain ⟨l2, w2, z2⟩ := lookupOpts_release hchk hso'.wf hso'.zoom hfit.zoom kg
  generalize keyLookup opts q kg = o at l1 w1 z1 hbb hin
  generalize keyLookup opts' q kg = o' at l2 w2 z2 hbb hin
  have hbf : ∀ o, BoxFit env.chk o := by rw [hchk]; exact boxFit_false
  have hn : NumbersOk o q.store.radius := fun _ => ⟨z1, hfit.radius⟩
  have hn' : NumbersOk o' q.store.radius := fun _ => ⟨z2, hfit.radius⟩
  obtain ⟨gs, g1, -⟩ := query_fit hfit (k := kg) ⟨hst, by rw [hchk]; nofun,
    by rw [hchk]; nofun⟩ w1 (hbf o) z1 (n := 100000) (by norm_num)
  obtain ⟨gs', g2, hperm⟩ := C100_query hfit.built env.merger env.rows hst hbb
    (fun e h => ((hin e).1 h).1) w1 w2 (hbf o) (hbf o') hn hrows g1
  have ha : answersTo env opts' q kg 100000 = some gs' := answersTo_some.2 ⟨o', l2, g2⟩
  have hlen := hs.answers _ hq _ hk gs' ha
  have hsort := C22_relevance_partial _ hfit.built q.store rfl _ _ _ kg.key hst o' w2 hn' _
    (by norm_num) gs' g2
  refine ⟨gs, gs', o, q.store.radius, answersTo_some.2 ⟨o, l1, g1⟩, ha, ?_, hlen, ?_, ?_, ?_⟩
  · rw [hperm.length_eq]
    exact (List.length_filter_le _ _).trans hlen
  · exact C22_relevance_partial _ hfit.built q.store rfl _ _ _ kg.key hst o w1 hn _
      (by norm_num) gs g1
  · have : NotWorse o q.store.radius = NotWorse o' q.store.radius := by
      unfold NotWorse WithinRadius
      simp only [hbb.point, hbb.zoom]
    rw [this]
    exact hsort
  · intro g
    rw [hperm.mem_iff, List.mem_filter, decide_eq_true_eq]
    have hg : g ∈ gs' → InBox o' g.entry := by
      intro h
      obtain ⟨gs2, g3, hp⟩ := C100_query hfit.built env.merger env.rows hst (opts := o') (opts' := o')
        ⟨rfl, rfl⟩ (fun _ h => h) w2 w2 (hbf o') (hbf o') hn' hrows g2
      exact of_decide_eq_true (List.mem_filter.1 (hp.mem_iff.1 h)).2
    constructor
    · rintro ⟨h1, h2⟩
      exact ⟨h1, ((hin _).1 h2).2⟩
    · rintro ⟨h1, h2⟩
      exact ⟨h1, (hin _).2 ⟨hg h1, h2⟩⟩

theorem wider_improve (hchk : env.chk = false) (hso : SoundOpts opts) (hso' : SoundOpts opts')
    (hw : WiderGround opts opts') (hs : SmallLookups env opts' qs)
    (hzf : ∀ q ∈ qs, ZoomFits opts q.store) :
    Improves (· = ·) env opts opts' id (fun _ kg => kg) qs := by
  rintro ⟨q, kg, g⟩ hq hf
  obtain ⟨hk, before, after, h1, h2, h3⟩ := firstAnswer_iff.1 hf
  obtain ⟨gs, gs', o, radius, a1, a2, -, a4, a5, a6, a7⟩ :=
    wider_answers hchk hso hso' hw hs hzf hq hk
  rw [a1] at h1
  cases h1
  obtain ⟨m1, m2⟩ := (a7 g).1 (by simp)
  obtain ⟨before', g', after', rfl, n1, n2⟩ := exists_first m1
  refine ⟨g', ?_, n1, le_antisymm (first_is_best a6 n2 m1 n1) ?_⟩
  · rw [firstAnswer_iff]
    refine ⟨hk, before', after', a2, ?_, n2⟩
    rw [List.length_append, List.length_cons] at a4
    change before'.length < 100000
    omega
  · have hg' : g' ∈ before ++ g :: after := by
      rw [a7]
      refine ⟨by simp, ?_⟩
      rw [n1.1, n1.2.1]
      exact m2
    exact first_is_best a5 h3 hg' ⟨n1.1.symm, n1.2.1.symm, n1.2.2.symm⟩

/-- Back: for hits whose tiles are in the smaller box. -/
theorem wider_back (hchk : env.chk = false) (hso : SoundOpts opts) (hso' : SoundOpts opts')
    (hw : WiderGround opts opts') (hs : SmallLookups env opts' qs)
    (hzf : ∀ q ∈ qs, ZoomFits opts q.store) {h : Hit} (hq : h.q ∈ qs) (hf : h.FirstAnswer env opts')
    (ht : TouchesGround opts h.q.store.zoom h.grid.entry.x h.grid.entry.y) :
    ∃ g, BetterHit (· = ·) env opts id (fun _ kg => kg) h ⟨h.q, h.kg, g⟩ := by
  obtain ⟨q, kg, g'⟩ := h
  obtain ⟨hk, before', after', h1, h2, h3⟩ := firstAnswer_iff.1 hf
  obtain ⟨gs, gs', o, radius, a1, a2, a3, -, a5, a6, a7⟩ :=
    wider_answers hchk hso hso' hw hs hzf hq hk
  rw [a2] at h1
  cases h1
  have m1 := (a7 g').2 ⟨by simp, ht⟩
  obtain ⟨before, g, after, rfl, n1, n2⟩ := exists_first m1
  refine ⟨g, rfl, ?_, n1, le_antisymm (first_is_best a5 n2 m1 n1) ?_⟩
  · rw [firstAnswer_iff]
    refine ⟨hk, before, after, a1, ?_, n2⟩
    rw [List.length_append, List.length_cons] at a3
    change before.length < 100000
    omega
  · exact first_is_best a6 h3 ((a7 g).1 (by simp)).1 ⟨n1.1.symm, n1.2.1.symm, n1.2.2.symm⟩

theorem wider_backs (hchk : env.chk = false) (hso : SoundOpts opts) (hso' : SoundOpts opts')
    (hw : WiderGround opts opts') (hs : SmallLookups env opts' qs)
    (hzf : ∀ q ∈ qs, ZoomFits opts q.store) {l : List Hit} (hq : ∀ h ∈ l, h.q ∈ qs)
    (hf : ∀ h ∈ l, h.FirstAnswer env opts')
    (ht : ∀ h ∈ l, TouchesGround opts h.q.store.zoom h.grid.entry.x h.grid.entry.y) :
    ∃ l', List.Forall₂ (BetterHit (· = ·) env opts id (fun _ kg => kg)) l l' := by
  induction l with
  | nil => exact ⟨[], .nil⟩
  | cons a t ih =>
    obtain ⟨t', h'⟩ := ih (fun h hh => hq h (List.mem_cons_of_mem _ hh))
      (fun h hh => hf h (List.mem_cons_of_mem _ hh)) (fun h hh => ht h (List.mem_cons_of_mem _ hh))
    obtain ⟨g, hg⟩ := wider_back hchk hso hso' hw hs hzf (hq a List.mem_cons_self)
      (hf a List.mem_cons_self) (ht a List.mem_cons_self)
    exact ⟨⟨a.q, a.kg, g⟩ :: t', List.Forall₂.cons hg h'⟩

theorem same_shapes (qs : List Subquery) : Shapes id (fun _ kg => kg) qs qs where
  mask _ := rfl
  idx _ := rfl
  groups _ _ _ _ h _ _ := h
  nonOverlapping _ := rfl
  matchKeys q := (List.map_id _).symm
  id _ _ := rfl
  typeId _ _ := rfl
  zoom _ _ := rfl
  mem _ hq := hq
  onto q hq := ⟨q, hq, rfl⟩

theorem SameParts.same {c c' : Context} (h : SameParts (· = ·) c c') : SameContext c c' :=
  ⟨h.parts.imp fun _ _ h => ⟨h.1.1, h.1.2, h.2.1, h.2.2.1.1, h.2.2.1.2.1, h.2.2.1.2.2, h.2.2.2.symm⟩,
    h.mask, h.relev.symm⟩

end

/-- **C100**, for `stack_and_coalesce`: whatever a search in a box returned, a search in a wider box
returns too, with the same relevance. -/
theorem C100_search {env : TreeEnv} (hchk : env.chk = false) {qs : List Subquery}
    {opts opts' : MatchOpts} (hso : SoundOpts opts) (hso' : SoundOpts opts')
    (hwide : WiderGround opts opts') (hzf : ∀ q ∈ qs, ZoomFits opts q.store)
    (hs : SmallLookups env.toEnv opts' qs) (hd : Delivered qs) (hfew : FewGroupStacks 2000 qs)
    (hz : ZoomsAscend qs) (hroom : RoomForGroups qs) (hw : WeightsPositive qs)
    {out out' : List Context} (hout : stackAndCoalesce env qs opts = some out)
    (hout' : stackAndCoalesce env qs opts' = some out') (hlen : Short out') :
    ∀ c ∈ out, LoneResult env.toEnv opts qs c ∨ ∃ c' ∈ out', SameContext c c' := by
  intro c hc
  rcases C91_sound hd hfew (Or.inr hz) hout c hc with ⟨hs', h1, h2, h3⟩ | h
  · right
    obtain ⟨c', r1, r2⟩ := better_returned (same_shapes qs) (Or.inr (Or.inr rfl)) hw hw
      (fun _ _ => rfl) (wider_improve hchk hso hso' hwide hs hzf) (fun _ _ _ _ _ h => h) h1 h2 h3
    exact ⟨c', C91_complete hd hfew (Or.inr hz) hroom hout' hlen c' r1, r2.same⟩
  · exact Or.inl h

/-- **C100**, the other way: a context of several phrase matches that a search in the wider box returns
is returned by the search in the smaller box if its smallest tile has ground in the smaller box. -/
theorem C100_back {env : TreeEnv} (hchk : env.chk = false) {qs : List Subquery}
    {opts opts' : MatchOpts} (hso : SoundOpts opts) (hso' : SoundOpts opts')
    (hwide : WiderGround opts opts') (hzf : ∀ q ∈ qs, ZoomFits opts q.store)
    (hs : SmallLookups env.toEnv opts' qs) (hd : Delivered qs) (hfew : FewGroupStacks 2000 qs)
    (hz : ZoomsAscend qs) (hroom : RoomForGroups qs) (hw : WeightsPositive qs)
    (hbox : BoxesCover env.toEnv opts qs)
    {out out' : List Context} (hout : stackAndCoalesce env qs opts = some out)
    (hout' : stackAndCoalesce env qs opts' = some out') (hlen : Short out) :
    ∀ c' ∈ out', ReachesInto env.toEnv opts opts' qs c' → ∃ c ∈ out, SameContext c' c := by
  rintro c' - ⟨above, last, hl, hc, ht⟩
  have hall := hits_touch hc.tiles ht
  have hmem : ∀ h ∈ above ++ [last], h.q ∈ qs := fun h hh =>
    hc.stack.mem _ (List.mem_map_of_mem hh)
  have hfirst := hc.first hl
  obtain ⟨hs', hb⟩ := wider_backs hchk hso hso' hwide hs hzf hmem hfirst hall
  obtain ⟨c, r1, r2, r3⟩ := better_context_hits (same_shapes qs).toSameForm (Or.inr (Or.inr rfl)) hw
    hw (fun _ _ => rfl) hb hl hc
  exact ⟨c, C91_complete hd hfew (Or.inr hz) hroom hout hlen c
    ((C91_covered hbox).2 (Or.inl ⟨hs', r1, r2⟩)), r3.same⟩

/-! ## Cases -/

/-- The whole map. -/
abbrev wholeBox : MatchOpts := ⟨some ⟨0, 0, 63, 63⟩, some (1, 2), 6⟩

theorem wholeBox_sound : SoundOpts wholeBox := by
  refine ⟨by decide, ?_, ?_⟩
  · rintro p ⟨⟩
    decide
  · rintro b ⟨⟩
    decide

theorem wholeBox_wider : WiderGround smallBox wholeBox where
  point := rfl
  zoom := rfl
  ground u v h := by
    rintro b ⟨⟩
    have := h _ rfl
    unfold InArea at this ⊢
    push_cast at this ⊢
    obtain ⟨h1, h2, h3, h4⟩ := this
    exact ⟨by linarith, by linarith, by linarith, by linarith⟩

theorem wholeBox_small : SmallLookups (listTreeEnv false).toEnv wholeBox
    [regionTreeMatch, streetTreeMatch] := by
  refine ⟨?_, by decide +kernel, ?_⟩
  · intro q hq
    simp only [List.mem_cons, List.not_mem_nil, or_false] at hq
    rcases hq with rfl | rfl
    · exact ⟨⟨regionStore_laid, by decide +kernel, by decide⟩, by decide +kernel⟩
    · exact ⟨⟨streetStore_laid, by decide +kernel, by decide⟩, by decide +kernel⟩
  · have h : ∀ q ∈ [regionTreeMatch, streetTreeMatch],
        ∀ kg ∈ q.matchKeys, (answersTo (listTreeEnv false).toEnv wholeBox q kg 100000).all
          (fun gs => decide (gs.length ≤ 100000)) = true := by decide +kernel
    intro q hq kg hk gs hgs
    have := h q hq kg hk
    rw [hgs] at this
    exact of_decide_eq_true this

/-- The street in the region, and with the wider box the other street too. -/
example : ∃ out out', stackAndCoalesce (listTreeEnv false) [regionTreeMatch, streetTreeMatch]
      smallBox = some out ∧
    stackAndCoalesce (listTreeEnv false) [regionTreeMatch, streetTreeMatch] wholeBox = some out' ∧
    (∃ c ∈ out, c.entries.length = 2) ∧ out.length < out'.length ∧
    (∀ c ∈ out, LoneResult (listTreeEnv false).toEnv smallBox [regionTreeMatch, streetTreeMatch] c ∨
      ∃ c' ∈ out', SameContext c c') ∧
    ∀ c' ∈ out', ReachesInto (listTreeEnv false).toEnv smallBox wholeBox
      [regionTreeMatch, streetTreeMatch] c' → ∃ c ∈ out, SameContext c' c := by
  have h1 : (stackAndCoalesce (listTreeEnv false) [regionTreeMatch, streetTreeMatch]
      smallBox).map (fun out => decide (out.length = 5 ∧ ∃ c ∈ out, c.entries.length = 2)) =
        some true := by decide +kernel
  have h2 : (stackAndCoalesce (listTreeEnv false) [regionTreeMatch, streetTreeMatch]
      wholeBox).map (fun out => decide (5 < out.length ∧ out.length < 40)) = some true := by
    decide +kernel
  obtain ⟨out, h1, h3⟩ := Option.map_eq_some_iff.1 h1
  obtain ⟨out', h2, h4⟩ := Option.map_eq_some_iff.1 h2
  obtain ⟨h3, h5⟩ := of_decide_eq_true h3
  obtain ⟨h4, h6⟩ := of_decide_eq_true h4
  have hd : Delivered [regionTreeMatch, streetTreeMatch] :=
    ⟨by decide +kernel, by decide +kernel, by decide +kernel⟩
  have hroom : RoomForGroups [regionTreeMatch, streetTreeMatch] :=
    room_of_small (by decide +kernel) (by decide +kernel) (by
      intro q hq kg hk
      simp only [List.mem_cons, List.not_mem_nil, or_false] at hq
      rcases hq with rfl | rfl <;> exact ⟨_, by rw [List.mem_singleton.1 hk]⟩)
  have hz : ZoomsAscend [regionTreeMatch, streetTreeMatch] := by
    unfold ZoomsAscend
    decide +kernel
  have hw : WeightsPositive [regionTreeMatch, streetTreeMatch] := by
    unfold WeightsPositive
    decide +kernel
  have hzf : ∀ q ∈ [regionTreeMatch, streetTreeMatch], ZoomFits smallBox q.store := fun q hq =>
    (boxes_same q hq).1
  exact ⟨out, out', h1, h2, h5, by omega,
    C100_search rfl smallBox_sound wholeBox_sound wholeBox_wider hzf wholeBox_small hd
      (few_of_small (by decide +kernel)) hz hroom hw h1 h2 (short_of_few h6),
    C100_back rfl smallBox_sound wholeBox_sound wholeBox_wider hzf wholeBox_small hd
      (few_of_small (by decide +kernel)) hz hroom hw (boxesCover_of (by decide +kernel)) h1 h2
      (short_of_few (by omega))⟩

/-- A feature with a low score and 40 features elsewhere with a high one. -/
def crowdedStore : Store :=
  Store.openWith ((finish .id (Builder.new.append ⟨1, 1⟩ (⟨1, 1, 0, 0, 1000, 0⟩ ::
    (List.range 40).map fun i => ⟨1, 7, i, 1, i + 1, 0⟩))).getD []) 6 0 (lit 100) [⟨0, 0, 63, 63⟩] 0

/-- A phrase match in this store. -/
def crowdedMatch : Subquery := ⟨crowdedStore, 0, [], 1, 1, [⟨⟨.exact 1, 1⟩, false, 0, 5⟩]⟩

/-- C100 cannot say it of contexts of one phrase match nothing can be put below: in the wider box
there are 40 others that rank higher. -/
theorem C100_lone_overtaken : ∃ out out',
    stackAndCoalesce (listTreeEnv false) [crowdedMatch] ⟨some ⟨0, 0, 5, 0⟩, none, 6⟩ = some out ∧
    stackAndCoalesce (listTreeEnv false) [crowdedMatch] ⟨some ⟨0, 0, 63, 5⟩, none, 6⟩ = some out' ∧
    (∃ c ∈ out.head?, c.first.entry.id = 1000) ∧ ∀ c ∈ out', c.first.entry.id ≠ 1000 := by
  have h1 : (stackAndCoalesce (listTreeEnv false) [crowdedMatch]
      ⟨some ⟨0, 0, 5, 0⟩, none, 6⟩).map (fun out =>
        decide (∃ c ∈ out.head?, c.first.entry.id = 1000)) = some true := by
    decide +kernel
  have h2 : (stackAndCoalesce (listTreeEnv false) [crowdedMatch]
      ⟨some ⟨0, 0, 63, 5⟩, none, 6⟩).map (fun out =>
        decide (∀ c ∈ out, c.first.entry.id ≠ 1000)) = some true := by
    decide +kernel
  obtain ⟨out, h1, h3⟩ := Option.map_eq_some_iff.1 h1
  obtain ⟨out', h2, h4⟩ := Option.map_eq_some_iff.1 h2
  exact ⟨out, out', h1, h2, of_decide_eq_true h3, of_decide_eq_true h4⟩

end Carmen

import Verif.Spec.Relabel
import Verif.Props.Motion

/-!
# C97: searches in indexes with other ids
-/

namespace Carmen
open Format Spec Builder

/-! ## Other indexes -/

theorem withStore_twice (st st' : ℕ → Store) (q : Subquery) :
    withStore st' (withStore st q) = withStore st' q := rfl

theorem withStore_shapes {st st' : ℕ → Store} {qs : List Subquery}
    (hty : ∀ q ∈ qs, (st' q.idx).typeId = (st q.idx).typeId)
    (hz : ∀ q ∈ qs, (st' q.idx).zoom = (st q.idx).zoom) :
    Shapes (withStore st') (fun _ kg => kg) (qs.map (withStore st)) (qs.map (withStore st')) where
  mask _ := rfl
  idx _ := rfl
  groups _ _ _ _ h _ _ := h
  nonOverlapping _ := rfl
  matchKeys q := by rw [List.map_id']; rfl
  id _ _ := rfl
  typeId q hq := by
    obtain ⟨a, ha, rfl⟩ := List.mem_map.1 hq
    exact hty a ha
  zoom q hq := by
    obtain ⟨a, ha, rfl⟩ := List.mem_map.1 hq
    exact hz a ha
  mem q hq := by
    obtain ⟨a, ha, rfl⟩ := List.mem_map.1 hq
    exact List.mem_map.2 ⟨a, ha, rfl⟩
  onto q hq := by
    obtain ⟨a, ha, rfl⟩ := List.mem_map.1 hq
    exact ⟨_, List.mem_map_of_mem ha, rfl⟩

theorem withStore_delivered (st : ℕ → Store) {qs : List Subquery} (h : Delivered qs) :
    Delivered (qs.map (withStore st)) := by
  refine ⟨?_, ?_, ?_⟩
  · intro q hq
    obtain ⟨a, ha, rfl⟩ := List.mem_map.1 hq
    exact h.one a ha
  · rw [List.flatMap_map]
    exact h.ids
  · intro a ha b hb hab
    obtain ⟨a, ha', rfl⟩ := List.mem_map.1 ha
    obtain ⟨b, hb', rfl⟩ := List.mem_map.1 hb
    obtain ⟨h1, h2⟩ := h.index a ha' b hb' hab
    refine ⟨?_, h2⟩
    have : a.idx = b.idx := hab
    unfold withStore
    rw [this]

theorem withStore_zooms {st st' : ℕ → Store} {qs : List Subquery}
    (hty : ∀ q ∈ qs, (st' q.idx).typeId = (st q.idx).typeId)
    (hz : ∀ q ∈ qs, (st' q.idx).zoom = (st q.idx).zoom) (h : ZoomsAscend (qs.map (withStore st))) :
    ZoomsAscend (qs.map (withStore st')) := by
  intro a ha b hb
  obtain ⟨a, ha', rfl⟩ := List.mem_map.1 ha
  obtain ⟨b, hb', rfl⟩ := List.mem_map.1 hb
  have := h _ (List.mem_map_of_mem ha') _ (List.mem_map_of_mem hb')
  unfold withStore at this ⊢
  simp only at this ⊢
  rw [hz a ha', hz b hb', hty a ha', hty b hb']
  exact this

theorem withStore_weights (st : ℕ → Store) {qs : List Subquery} (h : WeightsPositive qs) :
    WeightsPositive (qs.map (withStore st)) := by
  intro q hq
  obtain ⟨a, ha, rfl⟩ := List.mem_map.1 hq
  exact h a ha

/-- Two answers to a lookup of which the second is the first one, mapped. -/
structure MappedAnswers (env : Env) (opts opts' : MatchOpts) (q q' : Subquery) (kg : KeyWithId)
    (pl : Place → Place → Prop) (g : MatchEntry → MatchEntry) (gs gs' : List MatchEntry) : Prop where
  first : answersTo env opts q kg 100000 = some gs
  second : answersTo env opts' q' kg 100000 = some gs'
  sorted : ∃ o r, gs.Pairwise (NotWorse o r)
  sorted' : ∃ o r, gs'.Pairwise (NotWorse o r)
  mem : ∀ x, x ∈ gs' ↔ x ∈ gs.map g
  relev : ∀ a ∈ gs, (g a).entry.relev = a.entry.relev
  place : ∀ a ∈ gs, pl (placeOf a.entry) (placeOf (g a).entry)
  same : ∀ a ∈ gs, ∀ b ∈ gs, AtSamePlace (g a) (g b) → AtSamePlace a b

theorem stores_carry {env : Env} {opts opts' : MatchOpts} {st st' : ℕ → Store} {qs : List Subquery}
    {pl : Subquery → Place → Place → Prop} {g : Subquery → KeyWithId → MatchEntry → MatchEntry}
    (h : ∀ q ∈ qs, ∀ kg ∈ q.matchKeys, ∃ gs gs', MappedAnswers env opts opts' (withStore st q)
      (withStore st' q) kg (pl (withStore st q)) (g q kg) gs gs' ∧ gs'.length ≤ 100000) :
    Carries pl (· = ·) env opts opts' (withStore st') (fun _ kg => kg) (qs.map (withStore st)) := by
  rintro ⟨q, kg, a⟩ hq hf
  obtain ⟨q, hq', rfl⟩ := List.mem_map.1 hq
  obtain ⟨hk, before, after, h1, h2, h3⟩ := firstAnswer_iff.1 hf
  obtain ⟨gs, gs', hm, hlen⟩ := h q hq' kg hk
  rw [hm.first] at h1
  cases h1
  obtain ⟨o, r, hs⟩ := hm.sorted
  obtain ⟨o', r', hs'⟩ := hm.sorted'
  have ha : a ∈ before ++ a :: after := by simp
  have hga := (hm.mem (g q kg a)).2 (List.mem_map_of_mem ha)
  obtain ⟨before', b', after', rfl, n1, n2⟩ := exists_first hga
  obtain ⟨b, hb, hgb⟩ := List.mem_map.1 ((hm.mem b').1 (by simp))
  have hab : AtSamePlace a b := hm.same a ha b hb (by rw [hgb]; exact n1)
  refine ⟨b', ?_, ?_, ?_⟩
  · rw [firstAnswer_iff]
    refine ⟨hk, before', after', hm.second, ?_, n2⟩
    rw [List.length_append, List.length_cons] at hlen
    change before'.length < 100000
    omega
  · have h1 := hm.place a ha
    have h2 : placeOf b'.entry = placeOf (g q kg a).entry := stay_iff (q := q).2 n1
    change pl (withStore st q) (placeOf a.entry) (placeOf b'.entry)
    rw [h2]
    exact h1
  · change a.entry.relev = b'.entry.relev
    refine le_antisymm ?_ ?_
    · rw [← hm.relev a ha]
      exact first_is_best hs' n2 hga n1
    · rw [← hgb, hm.relev b hb]
      exact first_is_best hs h3 hb ⟨hab.1.symm, hab.2.1.symm, hab.2.2.symm⟩

/-- The two answers of stores of which the second holds what the first one holds, mapped. -/
theorem mapped_lookup {c : Content} {s s' : Store} {f : GridEntry → GridEntry}
    {g : MatchEntry → MatchEntry} {o o' : MatchOpts} {chk : Bool} (hc : StoreWith c s)
    (hc' : StoreWith (fun k => (c k).map (List.map f)) s') (hrad : s'.radius = s.radius)
    (hg : Commutes c s.radius o o' f g) (M : KMerger) (H : Heap QueueElement.key)
    (lang : ℕ) (ho : OptsWf o) (hbf : BoxFit chk o) (hn : NumbersOk o s.radius)
    (ho' : OptsWf o') (hbf' : BoxFit chk o') (hn' : NumbersOk o' s'.radius) {phrase : MatchPhrase}
    (h : GrownLookup s s' phrase) :
    phrase.start < 2 ^ 32 ∧ ∃ out out',
      s.getMatching M H chk ⟨phrase, lang⟩ o 100000 = some out ∧
      s'.getMatching M H chk ⟨phrase, lang⟩ o' 100000 = some out' ∧
      (∀ r, r ∈ out' ↔ r ∈ out.map g) ∧
      ∀ r ∈ out, ∃ k es e ml, c k = some es ∧ e ∈ es ∧ r = report o s.radius ml (storedAny e) := by
  rcases h with ⟨p, p'⟩ | p
  · obtain ⟨out, out', h1, h2, h3⟩ := mapped_query hc hc' hrad hg M M H H lang ho hbf hn ho' hbf' hn'
      p.start p.largest p.bins p'.bins p.rows p'.rows
    refine ⟨p.start, out, out', h1, h2, h3, fun r hr => ?_⟩
    obtain ⟨out2, h4, h5⟩ := storeWith_query hc M H chk phrase lang p.start p.largest p.bins ho hbf hn
      p.rows
    rw [h1] at h4
    cases h4
    obtain ⟨k, es, e, k1, -, k3, -, k5⟩ := (h5 r).1 hr
    exact ⟨k, es, e, _, k1, k3, k5⟩
  · obtain ⟨st, en, rfl, hb⟩ := p.bins
    obtain ⟨out, out', h1, h2, h3⟩ := mapped_bins hc hc' hrad hg M M H H lang ho hbf hn ho' hbf' hn'
      p.opened.1 p.opened.2 hb p.ascending p.same p.rows.1 p.rows.2
    obtain ⟨h32, out2, h4, out3, h5, h6⟩ := bins_query hc p.opened.1 M H chk lang hb p.ascending ho hbf
      hn p.rows.1
    rw [h1] at h4
    cases h4
    refine ⟨h32, out, out', h1, h2, h3, fun r hr => ?_⟩
    have hph : (MatchPhrase.range (binStart s.bounds st en) en).start < 2 ^ 32 := by
      simp only [MatchPhrase.start, binStart]
      split_ifs
      · decide
      · exact h32
    obtain ⟨out4, h7, h8⟩ := storeWith_query (s := { s with bounds := [] }) hc M H chk _ lang hph nofun
      (by rintro ⟨_, _, _, h, -⟩; cases h) ho hbf hn
      (keys_le (s := { s with bounds := [] }) p.rows.1)
    rw [h5] at h7
    cases h7
    obtain ⟨k, es, e, k1, -, k3, -, k5⟩ := (h8 r).1 ((h6 r).1 hr)
    exact ⟨k, es, e, _, k1, k3, k5⟩

/-! ## Searches -/

theorem Spec.Relabelling.symm {f f' : ℕ → ℕ} (h : Relabelling f f') : Relabelling f' f :=
  ⟨h.lt', h.lt, h.right, h.left⟩

theorem Spec.RelabelsTo.symm {f f' : ℕ → ℕ} (hf : Relabelling f f') {s s' : Store}
    (h : RelabelsTo f s s') : RelabelsTo f' s' s := by
  obtain ⟨c, h1, h2, h3⟩ := h.content
  refine ⟨h.zoom.symm, h.typeId.symm, h.radius.symm, h.boxes.symm, _, h2, ?_, ?_⟩
  · have : relabelled (fun id hash => (f' id, hash)) (relabelled (fun id hash => (f id, hash)) c) =
        c := by
      funext k
      unfold relabelled
      cases hk : c k with
      | none => rfl
      | some es =>
        simp only [Option.map_some, List.map_map, Option.some.injEq]
        conv_rhs => rw [← List.map_id es]
        refine List.map_congr_left fun e he => ?_
        simp only [Function.comp_apply, relabel, hf.left _ (h3 k es e hk he), id_eq]
    rw [this]
    exact h1
  · intro k es e hk he
    obtain ⟨es', h4, rfl⟩ := Option.map_eq_some_iff.1 hk
    obtain ⟨e', h5, rfl⟩ := List.mem_map.1 he
    exact hf.lt _ (h3 k es' e' h4 h5)

/-- The same tile, and the other id. -/
def relabelPlace (f : ℕ → ℕ → ℕ) (q : Subquery) (p p' : Place) : Prop :=
  p' = (p.1, p.2.1, f q.idx p.2.2)

theorem relabel_carry {env : Env} {opts : MatchOpts} {st st' : ℕ → Store} {qs : List Subquery}
    {f f' : ℕ → ℕ → ℕ} (hchk : env.chk = false) (how : OptsWf opts) (hz : opts.zoom ≤ 16)
    (hr : ∀ i, Relabelling (f i) (f' i))
    (hf : ∀ q ∈ qs, RelabelsTo (f q.idx) (st q.idx) (st' q.idx))
    (hfit : ∀ q ∈ qs, (st q.idx).radius ≠ .nan ∧ (st q.idx).zoom ≤ 16)
    (hk : ∀ q ∈ qs, ∀ kg ∈ q.matchKeys, GrownLookup (st q.idx) (st' q.idx) kg.key.phrase)
    (hfew : ∀ q ∈ qs, ∀ kg ∈ q.matchKeys, ∀ gs,
      answersTo env opts (withStore st' q) kg 100000 = some gs → gs.length ≤ 100000) :
    Carries (relabelPlace f) (· = ·) env opts opts (withStore st') (fun _ kg => kg)
      (qs.map (withStore st)) := by
  refine stores_carry (g := fun q _ r =>
    { r with entry := relabel (fun id hash => (f q.idx id, hash)) r.entry }) ?_
  intro q hq kg hkm
  obtain ⟨hrad, hzq⟩ := hfit q hq
  have hrt := hf q hq
  obtain ⟨c, w, w', h24⟩ := hrt.content
  obtain ⟨l1, o1, z1⟩ := lookupOpts_release (q := withStore st q) hchk how hz hzq kg
  have l2 : lookupOpts env opts (withStore st' q) kg = some (keyLookup opts (withStore st q) kg) := by
    have : lookupOpts env opts (withStore st' q) kg = lookupOpts env opts (withStore st q) kg := by
      unfold lookupOpts withStore
      simp only
      rw [hrt.zoom]
    rw [this, l1]
  generalize keyLookup opts (withStore st q) kg = o at l1 l2 o1 z1
  have hbf : BoxFit env.chk o := by rw [hchk]; exact boxFit_false o
  have hn : NumbersOk o (st q.idx).radius := fun _ => ⟨z1, hrad⟩
  have hn' : NumbersOk o (st' q.idx).radius := by rw [hrt.radius]; exact hn
  have hlab : LabelsFit (fun id hash => (f q.idx id, hash)) c := fun k es e hk he =>
    ⟨h24 k es e hk he, (hr _).lt _ (h24 k es e hk he)⟩
  obtain ⟨hst, gs, gs', g1, g2, g3, g4⟩ := mapped_lookup w w' hrt.radius
    (relabel_commutes hlab _ o) env.merger env.rows kg.key.langSet o1 hbf hn o1 hbf hn'
    (hk q hq kg hkm)
  have a2 : answersTo env opts (withStore st' q) kg 100000 = some gs' :=
    answersTo_some.2 ⟨o, l2, g2⟩
  refine ⟨gs, gs', ⟨answersTo_some.2 ⟨o, l1, g1⟩, a2, ?_, ?_, g3, fun _ _ => rfl, fun _ _ => rfl, ?_⟩,
    hfew q hq kg hkm gs' a2⟩
  · exact ⟨o, _, C22_relevance_partial _ w.laid (st q.idx) rfl env.merger env.rows env.chk
      ⟨kg.key.phrase, kg.key.langSet⟩ hst o o1 hn _ (by norm_num) gs g1⟩
  · exact ⟨o, _, C22_relevance_partial _ w'.laid (st' q.idx) rfl env.merger env.rows env.chk
      ⟨kg.key.phrase, kg.key.langSet⟩ hst o o1 hn' _ (by norm_num) gs' g2⟩
  · rintro a ha b hb ⟨p1, p2, p3⟩
    refine ⟨p1, p2, ?_⟩
    obtain ⟨_, _, ea, _, -, -, rfl⟩ := g4 a ha
    obtain ⟨_, _, eb, _, -, -, rfl⟩ := g4 b hb
    have ia : (storedAny ea).id < 2 ^ 24 := Nat.mod_lt _ (by norm_num)
    have ib : (storedAny eb).id < 2 ^ 24 := Nat.mod_lt _ (by norm_num)
    have p3' : f q.idx (storedAny eb).id = f q.idx (storedAny ea).id := p3
    change (storedAny eb).id = (storedAny ea).id
    rw [← (hr q.idx).left _ ia, ← (hr q.idx).left _ ib, p3']

theorem Spec.GrownLookup.symm {s s' : Store} {phrase : MatchPhrase} (h : GrownLookup s s' phrase) :
    GrownLookup s' s phrase := by
  rcases h with ⟨h1, h2⟩ | h
  · exact Or.inl ⟨h2, h1⟩
  · obtain ⟨st, en, rfl, hb⟩ := h.bins
    exact Or.inr ⟨⟨st, en, rfl, by rw [h.same]; exact hb⟩, h.same.symm, by rw [h.same]; exact h.ascending,
      h.opened.symm, h.rows.symm⟩

/-- **C97**, `stack_and_coalesce`: ids of features are labels. With other ids, every context comes back
with the same tiles, match keys and relevances, and with these ids. Left out are contexts of one phrase match nothing can
be put below: of those with equal scores, 40 are chosen by their ids. -/
theorem C97_search {env : TreeEnv} (hchk : env.chk = false) {qs : List Subquery} {opts : MatchOpts}
    (how : OptsWf opts) (hz16 : opts.zoom ≤ 16) {st st' : ℕ → Store} {f f' : ℕ → ℕ → ℕ}
    (hr : ∀ i, Relabelling (f i) (f' i))
    (hf : ∀ q ∈ qs, RelabelsTo (f q.idx) (st q.idx) (st' q.idx))
    (hfit : ∀ q ∈ qs, (st q.idx).radius ≠ .nan ∧ (st q.idx).zoom ≤ 16)
    (hk : ∀ q ∈ qs, ∀ kg ∈ q.matchKeys, GrownLookup (st q.idx) (st' q.idx) kg.key.phrase)
    (hans : ∀ q ∈ qs, ∀ kg ∈ q.matchKeys, ∀ gs,
      answersTo env.toEnv opts (withStore st' q) kg 100000 = some gs → gs.length ≤ 100000)
    (hd : Delivered qs) (hfew : FewGroupStacks 2000 (qs.map (withStore st)))
    (hz : ZoomsAscend (qs.map (withStore st))) (hroom : RoomForGroups (qs.map (withStore st)))
    (hw : WeightsPositive qs) {out out' : List Context}
    (hout : stackAndCoalesce env (qs.map (withStore st)) opts = some out)
    (hout' : stackAndCoalesce env (qs.map (withStore st')) opts = some out') (hlen : Short out') :
    ∀ c ∈ out, LoneResult env.toEnv opts (qs.map (withStore st)) c ∨
      ∃ c' ∈ out', RelabelledContext f c c' := by
  intro c hc
  have hty : ∀ q ∈ qs, (st' q.idx).typeId = (st q.idx).typeId := fun q hq => (hf q hq).typeId
  have hzo : ∀ q ∈ qs, (st' q.idx).zoom = (st q.idx).zoom := fun q hq => (hf q hq).zoom
  have hsh := withStore_shapes hty hzo
  rcases C91_sound (withStore_delivered st hd) hfew (Or.inr hz) hout c hc with ⟨hs', h1, h2, h3⟩ | h
  · right
    obtain ⟨c', r1, r2⟩ := moved_returned hsh (pl := relabelPlace f)
      (by rintro a - b - p p' r r' rfl rfl h; exact h) (Or.inr (Or.inr rfl))
      (withStore_weights st hw) (withStore_weights st' hw) (fun _ _ => rfl)
      (relabel_carry hchk how hz16 hr hf hfit hk hans)
      (by
        rintro q hq l - p p' rfl h
        obtain ⟨a, ha, rfl⟩ := List.mem_map.1 hq
        unfold Meets withStore at h ⊢
        simp only at h ⊢
        rw [(hf a ha).boxes, (hf a ha).zoom]
        exact h) h1 h2 h3
    refine ⟨c', C91_complete (withStore_delivered st' hd) (hsh.few hfew)
      (Or.inr (withStore_zooms hty hzo hz)) (hsh.room
      ⟨fun _ _ => rfl, fun _ _ => rfl, fun _ _ _ _ h => h⟩ hroom) hout' hlen c' r1, ?_, r2.mask,
      r2.relev.symm⟩
    refine r2.parts.imp ?_
    rintro e e' ⟨⟨q, -, hi, h1⟩, ⟨h2, h3, h4⟩, h5⟩
    have h6 := Prod.mk.inj h1
    have h7 := Prod.mk.inj h6.2
    refine ⟨h6.1, h7.1, ?_, h2, h3, h4, h5.symm⟩
    rw [← hi]
    exact h7.2
  · exact Or.inl h

/-- **C97**, `stack_and_coalesce`, the other way: nothing else comes back. -/
theorem C97_nothing_new {env : TreeEnv} (hchk : env.chk = false) {qs : List Subquery}
    {opts : MatchOpts} (how : OptsWf opts) (hz16 : opts.zoom ≤ 16) {st st' : ℕ → Store}
    {f f' : ℕ → ℕ → ℕ} (hr : ∀ i, Relabelling (f i) (f' i))
    (hf : ∀ q ∈ qs, RelabelsTo (f q.idx) (st q.idx) (st' q.idx))
    (hfit : ∀ q ∈ qs, (st q.idx).radius ≠ .nan ∧ (st q.idx).zoom ≤ 16)
    (hk : ∀ q ∈ qs, ∀ kg ∈ q.matchKeys, GrownLookup (st q.idx) (st' q.idx) kg.key.phrase)
    (hans : ∀ q ∈ qs, ∀ kg ∈ q.matchKeys, ∀ gs,
      answersTo env.toEnv opts (withStore st q) kg 100000 = some gs → gs.length ≤ 100000)
    (hd : Delivered qs) (hfew : FewGroupStacks 2000 (qs.map (withStore st)))
    (hz : ZoomsAscend (qs.map (withStore st))) (hroom : RoomForGroups (qs.map (withStore st)))
    (hw : WeightsPositive qs) {out out' : List Context}
    (hout : stackAndCoalesce env (qs.map (withStore st)) opts = some out)
    (hout' : stackAndCoalesce env (qs.map (withStore st')) opts = some out') (hlen : Short out) :
    ∀ c' ∈ out', LoneResult env.toEnv opts (qs.map (withStore st')) c' ∨
      ∃ c ∈ out, RelabelledContext f' c' c := by
  have hty : ∀ q ∈ qs, (st' q.idx).typeId = (st q.idx).typeId := fun q hq => (hf q hq).typeId
  have hzo : ∀ q ∈ qs, (st' q.idx).zoom = (st q.idx).zoom := fun q hq => (hf q hq).zoom
  have hsh := withStore_shapes hty hzo
  refine C97_search hchk how hz16 (fun i => (hr i).symm) (fun q hq => (hf q hq).symm (hr q.idx))
    (fun q hq => ?_) (fun q hq kg hkm => (hk q hq kg hkm).symm) hans hd (hsh.few hfew)
    (withStore_zooms hty hzo hz) (hsh.room
      ⟨fun _ _ => rfl, fun _ _ => rfl, fun _ _ _ _ h => h⟩ hroom) hw hout' hout hlen
  rw [(hf q hq).radius, (hf q hq).zoom]
  exact hfit q hq

/-! ## Cases -/

/-- Ids 5 and 7 change places. -/
def swapIds (_ n : ℕ) : ℕ := if n = 5 then 7 else if n = 7 then 5 else n

theorem swapIds_relabelling (i : ℕ) : Relabelling (swapIds i) (swapIds i) := by
  constructor <;> intro n hn <;> unfold swapIds <;> split_ifs <;> omega

/-- The region of `smallRegion` and the street of `smallStreet` with these ids. -/
def swappedRegion : List Call := [.append ⟨1, 1⟩ [⟨1, 3, 1, 1, 5, 0⟩]]

def swappedStreet : List Call := [.append ⟨2, 1⟩ [⟨lit 0.8, 3, 4, 4, 7, 0⟩]]

theorem swappedRegion_to :
    RelabelsTo (swapIds 0) (growthStore smallRegion 6 0) (growthStore swappedRegion 6 0) := by
  refine ⟨rfl, rfl, rfl, rfl, _, smallRegion_with, ?_, ?_⟩
  · have : relabelled (fun id hash => (swapIds 0 id, hash)) (Content.run smallRegion) =
        Content.run swappedRegion := by
      funext k
      simp only [smallRegion, swappedRegion, Content.run, List.foldl_cons, List.foldl_nil, Content.call,
        Content.set, relabelled]
      by_cases hk : k = ⟨1, 1⟩
      · subst hk
        simp [relabel, swapIds]
      · simp [hk]
    rw [this]
    refine growth_storeWith ?_ ?_ (by decide +kernel) (by decide +kernel) _ _ <;> intro d hd <;>
      simp only [swappedRegion, List.mem_cons, List.not_mem_nil, or_false] at hd
    · exact ⟨_, _, hd⟩
    · subst hd
      simp [Call.Wf, GridKey.Wf, GridEntry.Wf]
  · intro k es e hk he
    simp only [smallRegion, Content.run, List.foldl_cons, List.foldl_nil, Content.call,
      Content.set] at hk
    split_ifs at hk
    cases hk
    simp only [Option.getD_none, List.nil_append, List.mem_cons, List.not_mem_nil, or_false] at he
    rw [he]
    norm_num

theorem swappedStreet_to :
    RelabelsTo (swapIds 1) (growthStore smallStreet 8 1) (growthStore swappedStreet 8 1) := by
  refine ⟨rfl, rfl, rfl, rfl, _, smallStreet_with, ?_, ?_⟩
  · have : relabelled (fun id hash => (swapIds 1 id, hash)) (Content.run smallStreet) =
        Content.run swappedStreet := by
      funext k
      simp only [smallStreet, swappedStreet, Content.run, List.foldl_cons, List.foldl_nil, Content.call,
        Content.set, relabelled]
      by_cases hk : k = ⟨2, 1⟩
      · subst hk
        simp [relabel, swapIds]
      · simp [hk]
    rw [this]
    refine growth_storeWith ?_ ?_ (by decide +kernel) (by decide +kernel) _ _ <;> intro d hd <;>
      simp only [swappedStreet, List.mem_cons, List.not_mem_nil, or_false] at hd
    · exact ⟨_, _, hd⟩
    · subst hd
      simp [Call.Wf, GridKey.Wf, GridEntry.Wf]
  · intro k es e hk he
    simp only [smallStreet, Content.run, List.foldl_cons, List.foldl_nil, Content.call,
      Content.set] at hk
    split_ifs at hk
    cases hk
    simp only [Option.getD_none, List.nil_append, List.mem_cons, List.not_mem_nil, or_false] at he
    rw [he]
    norm_num

/-- The indexes before. -/
def labelStores (i : ℕ) : Store :=
  if i = 0 then growthStore smallRegion 6 0 else growthStore smallStreet 8 1

/-- The indexes after. -/
def swappedStores (i : ℕ) : Store :=
  if i = 0 then growthStore swappedRegion 6 0 else growthStore swappedStreet 8 1

example : ∃ out out',
    stackAndCoalesce (listTreeEnv false) (growthMatches.map (withStore labelStores)) plainOpts =
      some out ∧
    stackAndCoalesce (listTreeEnv false) (growthMatches.map (withStore swappedStores)) plainOpts =
      some out' ∧
    (∃ c ∈ out, c.entries.length = 2) ∧
    (∀ c ∈ out, LoneResult (listTreeEnv false).toEnv plainOpts
      (growthMatches.map (withStore labelStores)) c ∨ ∃ c' ∈ out', RelabelledContext swapIds c c') ∧
    ∀ c' ∈ out', LoneResult (listTreeEnv false).toEnv plainOpts
      (growthMatches.map (withStore swappedStores)) c' ∨ ∃ c ∈ out, RelabelledContext swapIds c' c := by
  have h1 : (stackAndCoalesce (listTreeEnv false) (growthMatches.map (withStore labelStores))
      plainOpts).map (fun out => decide (out.length < 40 ∧ ∃ c ∈ out, c.entries.length = 2)) =
        some true := by decide +kernel
  have h2 : (stackAndCoalesce (listTreeEnv false) (growthMatches.map (withStore swappedStores))
      plainOpts).map (fun out => decide (out.length < 40)) = some true := by decide +kernel
  obtain ⟨out, h1, h3⟩ := Option.map_eq_some_iff.1 h1
  obtain ⟨out', h2, h4⟩ := Option.map_eq_some_iff.1 h2
  obtain ⟨h3, h5⟩ := of_decide_eq_true h3
  have h4 := of_decide_eq_true h4
  have hf : ∀ q ∈ growthMatches, RelabelsTo (swapIds q.idx) (labelStores q.idx)
      (swappedStores q.idx) := by
    intro q hq
    simp only [growthMatches, List.mem_cons, List.not_mem_nil, or_false] at hq
    rcases hq with rfl | rfl
    · exact swappedRegion_to
    · exact swappedStreet_to
  have hk : ∀ q ∈ growthMatches, ∀ kg ∈ q.matchKeys,
      GrownLookup (labelStores q.idx) (swappedStores q.idx) kg.key.phrase := by
    intro q hq kg hk
    simp only [growthMatches, List.mem_cons, List.not_mem_nil, or_false] at hq
    rcases hq with rfl | rfl <;> rw [List.mem_singleton.1 hk] <;>
      exact Or.inl ⟨growth_plain (by norm_num) (by decide +kernel),
        growth_plain (by norm_num) (by decide +kernel)⟩
  have hans : ∀ st ∈ [labelStores, swappedStores], ∀ q ∈ growthMatches, ∀ kg ∈ q.matchKeys, ∀ gs,
      answersTo (listTreeEnv false).toEnv plainOpts (withStore st q) kg 100000 = some gs →
        gs.length ≤ 100000 := by
    intro st hst q hq kg hk gs hgs
    have : ∀ x : Option (List MatchEntry), x.map List.length = some 1 → x = some gs →
        gs.length ≤ 100000 := by
      rintro x hx rfl
      simp only [Option.map_some, Option.some.injEq] at hx
      omega
    simp only [growthMatches, List.mem_cons, List.not_mem_nil, or_false] at hq hst
    rcases hst with rfl | rfl <;> rcases hq with rfl | rfl <;> rw [List.mem_singleton.1 hk] at hgs <;>
      exact this _ (by decide +kernel) hgs
  have hroom : RoomForGroups (growthMatches.map (withStore labelStores)) := by
    refine room_of_small (by decide +kernel) (by decide +kernel) ?_
    intro q hq kg hk
    simp only [growthMatches, List.map_cons, List.map_nil, List.mem_cons, List.not_mem_nil,
      or_false] at hq
    rcases hq with rfl | rfl <;> exact ⟨_, by rw [List.mem_singleton.1 hk]⟩
  have hd : Delivered growthMatches := ⟨by decide +kernel, by decide +kernel, by decide +kernel⟩
  have hz : ZoomsAscend (growthMatches.map (withStore labelStores)) := by
    unfold ZoomsAscend
    decide +kernel
  have hw : WeightsPositive growthMatches := by
    unfold WeightsPositive
    decide +kernel
  exact ⟨out, out', h1, h2, h5,
    C97_search rfl ⟨by decide, by decide⟩ (by decide) swapIds_relabelling hf (by decide +kernel) hk
      (hans _ (by simp)) hd (few_of_small (by decide +kernel)) hz hroom hw h1 h2 (short_of_few h4),
    C97_nothing_new rfl ⟨by decide, by decide⟩ (by decide) swapIds_relabelling hf (by decide +kernel) hk
      (hans _ (by simp)) hd (few_of_small (by decide +kernel)) hz hroom hw h1 h2 (short_of_few h3)⟩

/-- 41 features that differ only in their ids. -/
def equalStore : Store :=
  Store.openWith ((finish .id (Builder.new.append ⟨1, 1⟩ ((List.range 41).map fun i =>
    ⟨1, 3, 1, 1, i + 1, 0⟩))).getD []) 6 0 (lit 100) [⟨0, 0, 63, 63⟩] 0

/-- C97 cannot say it of contexts of one phrase match nothing can be put below: of 41 features that
differ only in their ids, the one with the least id is left out. -/
theorem C97_lone_by_id : ∃ out, stackAndCoalesce (listTreeEnv false)
      [⟨equalStore, 0, [], 1, 1, [⟨⟨.exact 1, 1⟩, false, 0, 5⟩]⟩] ⟨none, none, 6⟩ = some out ∧
    (∀ i < 40, ∃ c ∈ out, c.first.entry.id = i + 2) ∧ ∀ c ∈ out, c.first.entry.id ≠ 1 := by
  have h1 : (stackAndCoalesce (listTreeEnv false)
      [⟨equalStore, 0, [], 1, 1, [⟨⟨.exact 1, 1⟩, false, 0, 5⟩]⟩] ⟨none, none, 6⟩).map (fun out =>
        decide ((∀ i < 40, ∃ c ∈ out, c.first.entry.id = i + 2) ∧
          ∀ c ∈ out, c.first.entry.id ≠ 1)) = some true := by
    decide +kernel
  obtain ⟨out, h1, h3⟩ := Option.map_eq_some_iff.1 h1
  exact ⟨out, h1, of_decide_eq_true h3⟩

end Carmen

import Verif.Lemmas.SingleAgree
import Verif.Props.TreeCoalesce

/-!
# The two implementations of coalesce agree on a single phrase match (C50)
-/

namespace Carmen
open Spec Builder

theorem insertionSort_map {α β K L : Type} [LinearOrder K] [LinearOrder L] {ka : α → K} {kb : β → L}
    (f : α → β) (l : List α)
    (h : ∀ a ∈ l, ∀ b ∈ l, kb (f b) ≤ kb (f a) ↔ ka b ≤ ka a) :
    (l.map f).insertionSort (fun a b => kb b ≤ kb a) =
      (l.insertionSort fun a b => ka b ≤ ka a).map f := by
  symm
  refine List.map_insertionSort _ _ f l ?_
  intro a ha b hb
  exact (h a ha b hb).symm

/-- Both order features of one index the same way. -/
theorem sortKey_singleKey {q : Subquery} {pid : ℕ} {g g' : MatchEntry} :
    (unlabel (singleContext (toEntry g q pid))).singleKey ≤
        (unlabel (singleContext (toEntry g' q pid))).singleKey ↔
      (singleContext (toEntry g q pid)).sortKey ≤ (singleContext (toEntry g' q pid)).sortKey := by
  simp only [Context.singleKey, Context.sortKey, Prod.Lex.toLex_le_toLex]
  simp only [singleContext, unlabel, unlabelEntry, Context.first, List.map_cons, List.map_nil,
    List.headD_cons, toEntry, lt_self_iff_false, true_and, false_or]

theorem unlabel_single (e : CoalesceEntry) :
    unlabel (singleContext e) = singleContext (unlabelEntry e) := rfl

theorem singleLoop_collected {env : Env} {q : Subquery} {opts : MatchOpts} {pid : ℕ}
    {grids : List MatchEntry} {s : SingleState} {np : Bool}
    (h : singleLoop (mkEntry env.chk opts q pid) np SingleState.init grids = some s) :
    Collected (fun e => ∃ g ∈ grids, e = toEntry g q pid) s.coalesced := by
  refine singleLoop_induct (P := fun s => Collected _ s.coalesced) ?_ ?_ h
  · intro s g e hs hg he
    exact hs.record ⟨g, hg, mkEntry_some he⟩
  · exact ⟨HMap.wf_nil, by simp [SingleState.init], by simp [SingleState.init]⟩

/-- What `coalesce_single` returns, in terms of the contexts of tree coalesce. -/
theorem single_sorted {q : Subquery} {pid : ℕ} {grids : List MatchEntry} {m : HMap ℕ CoalesceEntry}
    (hm : Collected (fun e => ∃ g ∈ grids, e = toEntry g q pid) m) (o : IterOrder) :
    (((o.run (m.map fun p => (p.1, unlabelEntry p.2))).map fun p => singleContext p.2).insertionSort
        fun a b => b.singleKey ≤ a.singleKey) =
      ((singleById m).insertionSort fun a b => b.sortKey ≤ a.sortKey).map unlabel := by
  have hm' : Collected (fun _ => True) (m.map fun p => (p.1, unlabelEntry p.2)) := by
    refine ⟨?_, ?_, fun _ _ => trivial⟩
    · have := hm.wf
      unfold HMap.Wf at this ⊢
      rw [List.map_map]
      exact this
    · intro p hp
      obtain ⟨p', hp', rfl⟩ := List.mem_map.1 hp
      exact hm.key p' hp'
  rw [collected_order hm' o IterOrder.id]
  have hperm := List.perm_insertionSort (fun a b : ℕ × CoalesceEntry => a.1 ≤ b.1) m
  have hmap : ((IterOrder.id.run (m.map fun p => (p.1, unlabelEntry p.2))).map
      fun p => singleContext p.2).Perm ((singleById m).map unlabel) := by
    change ((m.map fun p => (p.1, unlabelEntry p.2)).map fun p => singleContext p.2).Perm _
    unfold singleById
    rw [List.map_map, List.map_map]
    exact (hperm.map _).symm
  have hinj : ∀ x ∈ (singleById m).map unlabel, ∀ y ∈ (singleById m).map unlabel,
      x.singleKey = y.singleKey → x = y := by
    intro x hx y hy hxy
    unfold singleById at hx hy
    rw [List.map_map] at hx hy
    obtain ⟨a, ha, rfl⟩ := List.mem_map.1 hx
    obtain ⟨b, hb, rfl⟩ := List.mem_map.1 hy
    have ha := hperm.mem_iff.1 ha
    have hb := hperm.mem_iff.1 hb
    have hid : (unlabelEntry a.2).entry.id = (unlabelEntry b.2).entry.id := singleKey_id hxy
    have h1 : a.1 = b.1 := by
      rw [← hm.key a ha, ← hm.key b hb]
      exact hid
    have h2 := HMap.find_of_mem hm.wf ha
    have h3 := HMap.find_of_mem hm.wf (show (a.1, b.2) ∈ m by rw [h1]; exact hb)
    have h4 : a.2 = b.2 := by rw [h2] at h3; exact Option.some.inj h3
    simp only [Function.comp_apply, h4]
  have hsort := sorted_unique
    (((List.perm_insertionSort _ _).trans hmap).trans
      (List.perm_insertionSort (fun a b : Context => b.singleKey ≤ a.singleKey) _).symm)
    (pairwise_insertionSort_desc Context.singleKey _)
    (pairwise_insertionSort_desc Context.singleKey ((singleById m).map unlabel)) (by
      intro x hx y hy
      exact hinj x (((List.perm_insertionSort _ _).trans hmap).mem_iff.1 hx) y
        (((List.perm_insertionSort _ _).trans hmap).mem_iff.1 hy))
  rw [hsort]
  refine insertionSort_map (ka := Context.sortKey) (kb := Context.singleKey) unlabel _ ?_
  intro a ha b hb
  unfold singleById at ha hb
  obtain ⟨pa, hpa, rfl⟩ := List.mem_map.1 ha
  obtain ⟨pb, hpb, rfl⟩ := List.mem_map.1 hb
  obtain ⟨ga, -, hga⟩ := hm.made pa (hperm.mem_iff.1 hpa)
  obtain ⟨gb, -, hgb⟩ := hm.made pb (hperm.mem_iff.1 hpb)
  rw [hga, hgb]
  exact sortKey_singleKey

theorem sortKey_inj {q : Subquery} {pid : ℕ} {grids : List MatchEntry} {m : HMap ℕ CoalesceEntry}
    (hm : Collected (fun e => ∃ g ∈ grids, e = toEntry g q pid) m) :
    ∀ x ∈ singleById m, ∀ y ∈ singleById m, x.sortKey = y.sortKey → x = y := by
  have hperm := List.perm_insertionSort (fun a b : ℕ × CoalesceEntry => a.1 ≤ b.1) m
  intro x hx y hy hxy
  unfold singleById at hx hy
  obtain ⟨a, ha, rfl⟩ := List.mem_map.1 hx
  obtain ⟨b, hb, rfl⟩ := List.mem_map.1 hy
  have ha := hperm.mem_iff.1 ha
  have hb := hperm.mem_iff.1 hb
  have hid : a.2.entry.id = b.2.entry.id := by
    unfold Context.sortKey at hxy
    simp only [EmbeddingLike.apply_eq_iff_eq, Prod.mk.injEq] at hxy
    exact hxy.2.2.2.2.2
  have h1 : a.1 = b.1 := by rw [← hm.key a ha, ← hm.key b hb]; exact hid
  have h2 := HMap.find_of_mem hm.wf ha
  have h3 := HMap.find_of_mem hm.wf (show (a.1, b.2) ∈ m by rw [h1]; exact hb)
  rw [h2] at h3
  rw [Option.some.inj h3]

/-- The results of `coalesce` among the contexts of one index, no feature twice. -/
theorem pick_cutOff {cs : List Context} (hlen : cs.length ≤ maxContexts)
    (hnd : cs.Pairwise fun a b => a.first.tmpId ≠ b.first.tmpId) :
    (match cs with
      | [] => some []
      | c :: _ => some (pickContexts c.relev 0 [] cs)) = some (cutOff cs) := by
  cases cs with
  | nil => rfl
  | cons c t =>
    simp only [cutOff]
    rw [pick_takeWhile c.relev 0 [] (c :: t) (by omega) (by simp) hnd]

theorem cutOff_unlabel (cs : List Context) : cutOff (cs.map unlabel) = (cutOff cs).map unlabel := by
  cases cs with
  | nil => rfl
  | cons c t =>
    simp only [List.map_cons, cutOff]
    rw [← List.map_cons, List.takeWhile_map]
    rfl

/-- **C50.** For one phrase match with one match key, at the zoom of its index, stack-and-coalesce
followed by the cut-off at 0.25 gives the same contexts in the same order as coalesce, apart from
the label telling which match key was answered (coalesce always writes 0); and one panics if and
only if the other does. `129` is the index number the stack tree gives to its root; the match key
must not be restricted to the neighbourhood, because coalesce ignores that; a match without weight
may not be worth a scan to the tree; in a debug build an inverted range panics in the tree. -/
theorem C50_agrees (env : TreeEnv) (os : ℕ → IterOrder) (q : Subquery) (kg : KeyWithId)
    (opts : MatchOpts) (hbytes : ∀ r ∈ q.store.db, IsBytes r.2) (hkeys : q.matchKeys = [kg])
    (hnear : kg.nearbyOnly = false) (hzoom : opts.zoom = q.store.zoom) (hw : 0 < q.weight)
    (hover : 129 ∉ q.nonOverlapping)
    (hrange : ∀ s e, kg.key.phrase = .range s e → s ≤ e ∨ env.chk = false) :
    (stackAndCoalesce env [q] opts).map (fun out => (cutOff out).map unlabel) =
      coalesce env.toEnv os [q] opts := by
  have hr : ∃ isRange, isRangeKey env.chk kg.key.phrase = some isRange := by
    cases hp : kg.key.phrase with
    | exact i => exact ⟨_, rfl⟩
    | range s e =>
      simp only [isRangeKey]
      rcases hrange s e hp with h | h
      · rw [decide_eq_false (by omega), Bool.and_false]
        exact ⟨_, rfl⟩
      · rw [h]
        exact ⟨_, rfl⟩
  obtain ⟨isRange, hr⟩ := hr
  rw [treeCoalesce_single hkeys hnear hw hr hzoom hover]
  unfold coalesce allContexts
  simp only [List.length_cons, List.length_nil, Nat.zero_add, le_refl, if_true, List.head?_cons,
    Option.bind_some, Option.bind_eq_bind, coalesceSingle, singleFeatures, hkeys]
  cases hq : env.query q.store kg.key opts (2 * maxContexts) with
  | none => rfl
  | some grids =>
    simp only [Option.bind_some]
    have hun := singleLoop_unlabel env.chk opts q kg.id opts.proximity.isNone SingleState.init grids
    have hinit : SingleState.init.unlabel = SingleState.init := rfl
    rw [hinit] at hun
    rw [hun]
    unfold treeSingle
    cases hl : singleLoop (mkEntry env.chk opts q kg.id) opts.proximity.isNone SingleState.init
        grids with
    | none => rfl
    | some s =>
      have hm := singleLoop_collected hl
      simp only [Option.bind_eq_bind, Option.bind_some, Option.map_some, SingleState.unlabel]
      rw [twice_take env.contexts (by decide) _ (sortKey_inj hm), single_sorted hm (os 0),
        ← List.map_take]
      have hids := getMatching_ids hbytes hq
      refine Eq.trans ?_ (pick_cutOff ?_ ?_).symm
      · rw [cutOff_unlabel]
      · rw [List.length_map]
        exact List.length_take_le _ _
      · rw [List.pairwise_map]
        refine List.Pairwise.sublist (List.take_sublist _ _) ?_
        have hp : ((singleById s.coalesced).insertionSort fun a b => b.sortKey ≤ a.sortKey).Perm
            (s.coalesced.map fun p => singleContext p.2) :=
          (List.perm_insertionSort _ _).trans ((List.perm_insertionSort _ _).map _)
        have hsymm : ∀ {x y : Context}, (unlabel x).first.tmpId ≠ (unlabel y).first.tmpId →
            (unlabel y).first.tmpId ≠ (unlabel x).first.tmpId := fun h => h.symm
        refine (hp.pairwise_iff hsymm).2 ?_
        rw [List.pairwise_map]
        have hnd : s.coalesced.Pairwise fun a b => a.1 ≠ b.1 := by
          have := hm.wf
          unfold HMap.Wf at this
          exact List.pairwise_map.1 this
        refine List.Pairwise.imp_of_mem ?_ hnd
        intro a b ha hb hab heq
        obtain ⟨ga, hga, hea⟩ := hm.made a ha
        obtain ⟨gb, hgb, heb⟩ := hm.made b hb
        rw [← hm.key a ha, ← hm.key b hb, hea, heb] at hab
        rw [hea, heb] at heq
        exact hab (tmpId_inj (hids ga hga) (hids gb hgb) heq)

/-- The hypotheses of `C50_agrees` hold and there is something to agree on. -/
example : (∀ r ∈ regionMatch.store.db, IsBytes r.2) ∧
    regionMatch.matchKeys = [⟨⟨.exact 1, 1⟩, false, 0, 5⟩] ∧ 0 < regionMatch.weight ∧
    129 ∉ regionMatch.nonOverlapping ∧
    ((coalesce listEnv (fun _ => .id) [regionMatch] ⟨none, none, 6⟩).map ctxIds) =
      some [(lit 0.5, [(0, 3)]), (lit 0.4, [(0, 4)])] := by
  refine ⟨?_, rfl, by decide +kernel, by decide, by decide +kernel⟩
  unfold IsBytes
  decide +kernel

/-- The same phrase match restricted to the neighbourhood of the proximity point. -/
def nearbyMatch : Subquery :=
  { regionMatch with matchKeys := [⟨⟨.exact 1, 1⟩, true, 0, 5⟩] }

/-- The restriction to match keys that are not restricted is needed: coalesce ignores the
restriction and tree coalesce does not. -/
theorem C50_nearby : nearbyMatch.matchKeys.length = 1 ∧ 0 < nearbyMatch.weight ∧
    (stackAndCoalesce (listTreeEnv false) [nearbyMatch] ⟨none, some (60, 60), 6⟩).map ctxIds = some [] ∧
    (coalesce listEnv (fun _ => .id) [nearbyMatch] ⟨none, some (60, 60), 6⟩).map
      (fun cs => cs.map fun c => c.entries.map (·.entry.id)) = some [[3], [4]] := by
  refine ⟨rfl, ?_, ?_, ?_⟩ <;> decide +kernel

/-- A phrase match of weight 0 that needs a range scan of a high-zoom index. -/
def weightlessMatch : Subquery :=
  ⟨Store.openWith ((finish .id regionBuilder).getD []) 14 0 (lit 100) [] 0, 0, [], 0, 1,
    [⟨⟨.range 1 3, 1⟩, false, 0, 5⟩]⟩

/-- The restriction to positive weights is needed: tree coalesce does not scan, coalesce does. -/
theorem C50_weightless : weightlessMatch.matchKeys.length = 1 ∧ weightlessMatch.weight = 0 ∧
    (stackAndCoalesce (listTreeEnv false) [weightlessMatch] ⟨none, none, 14⟩).map ctxIds = some [] ∧
    (coalesce listEnv (fun _ => .id) [weightlessMatch] ⟨none, none, 14⟩).map ctxIds =
      some [(0, [(0, 3)]), (0, [(0, 4)])] := by
  refine ⟨rfl, rfl, ?_, ?_⟩ <;> decide +kernel

end Carmen

import Verif.Props.FrameSearch
import Verif.Props.Rename

/-!
# C87 for `stack_and_coalesce`
-/

namespace Carmen
open Format Spec Builder

/-- Match keys that differ in the phrases they name at most, where the second one does not name a wide
range if the first one does not. -/
def KeyRenamed (kg kg' : KeyWithId) : Prop :=
  kg' = { kg with key := kg'.key } ∧ ∀ st' en', kg'.key.phrase = .range st' en' →
    ¬ (st' ≤ en' ∧ en' ≤ st' + 1) → ∃ st en, kg.key.phrase = .range st en ∧ ¬ (st ≤ en ∧ en ≤ st + 1)

/-- **C87**, `stack_and_coalesce`: a small request that names the phrases by their new ids returns the
same contexts with the same ranks. -/
theorem C87_search {env env' : TreeEnv} (henv : env.toEnv = env'.toEnv)
    {qs qs' : List Subquery} {opts : MatchOpts} {out out' : List Context}
    (hd : Delivered qs) (hd' : Delivered qs')
    (hq : List.Forall₂ (fun q q' => RenamedQ q q' ∧ q'.store.typeId = q.store.typeId ∧
      List.Forall₂ KeyRenamed q.matchKeys q'.matchKeys) qs qs')
    (hfew : FewGroupStacks 2000 qs) (hz : ZoomsAscend qs) (hroom : RoomForGroups qs)
    (hbox : BoxesCover env.toEnv opts qs) (hbox' : BoxesCover env.toEnv opts qs')
    (hout : stackAndCoalesce env qs opts = some out)
    (hout' : stackAndCoalesce env' qs' opts = some out') (hlen : Short out) :
    out.Perm out' ∧ out.map Context.sortKey = out'.map Context.sortKey := by
  refine search_alike_keys henv hd hd' ?_ rfl hfew hz hroom hbox hbox' hout hout' hlen
  have hone := hd.one
  clear hd hd' hfew hz hroom hbox hbox' hout hout'
  induction hq with
  | nil => exact .nil
  | @cons q q' l l' h1 _ ih =>
    refine .cons ?_ (ih fun q hq => hone q (List.mem_cons_of_mem _ hq))
    obtain ⟨⟨⟨cs, cs', o, o', b, b', db, db', zoom, typeId, typeId', radius, bboxes, bboxes',
      maxScore, maxScore', keys', hm, hm', hsm, hsm', hst, rfl, hs⟩⟩, ht, hk⟩ := h1
    obtain ⟨kg, e1⟩ := List.length_eq_one_iff.1 (hone q List.mem_cons_self)
    change List.Forall₂ KeyRenamed q.matchKeys keys' at hk
    rw [e1] at hk hs
    cases hk with
    | @cons _ kg' _ t hkk ht' =>
      cases ht'
      have hzz : (Store.openWith db' zoom typeId' radius bboxes' maxScore').zoom = q.store.zoom := by
        rw [hst]; rfl
      have ha : ∀ o n, env.toEnv.query
          (Store.openWith db' zoom typeId' radius bboxes' maxScore') kg'.key o n =
            env.toEnv.query q.store kg.key o n := by
        intro o n
        rw [hst]
        obtain ⟨⟨ph, l⟩, a1, a2, a3⟩ := kg
        obtain ⟨⟨ph', l'⟩, a1', a2', a3'⟩ := kg'
        cases hs with
        | some hs =>
          obtain ⟨h1, h2⟩ := hs
          simp only at h1 h2
          subst h2
          symm
          cases h1 with
          | exact id id' bound bound' same =>
            exact C87_exact hm hm' hsm hsm' id id' l bound bound' same _ _ _ o n ..
          | range f st en st' en' bound bound' same not not' =>
            exact C87_range hm hm' hsm hsm' f st en st' en' l bound bound' same not not' _ _ _ o n ..
      clear hst hm hm'
      generalize Store.openWith db' zoom typeId' radius bboxes' maxScore' = s' at *
      refine ⟨rfl, ht, hzz, ?_⟩
      rw [e1]
      refine .cons ⟨hkk.1, ?_, fun n => ?_⟩ .nil
      · rintro ⟨st', en', h1, h2⟩
        exact hkk.2 st' en' h1 h2
      · have hl : lookupOpts env.toEnv opts { q with store := s', matchKeys := [kg'] } kg' =
            lookupOpts env.toEnv opts q kg := by
          rw [hkk.1]
          exact lookupOpts_zoom (q := q) (q' := { q with store := s', matchKeys := [_] })
            (kg := kg) hzz
        unfold answersTo
        rw [hl]
        simp only [ha]

/-! ## Example -/

/-- Few phrase matches of indexes below zoom 14 need no quota. -/
theorem room_of_tiny {pms : List Subquery}
    (h : (pms.sublists'.flatMap List.permutations').length ≤ 8)
    (h1 : ∀ q ∈ pms, q.matchKeys.length = 1) (hz : ∀ q ∈ pms, q.store.zoom < 14) :
    RoomForGroups pms := by
  intro l hl hall
  have hlen : (lastScans l).length ≤ l.length := by
    clear hl
    unfold lastScans
    induction l with
    | nil => simp
    | cons a l ih =>
      rw [List.flatMap_cons, List.length_append, List.length_cons]
      have ih := ih fun s hs => hall s (List.mem_cons_of_mem _ hs)
      suffices (a.getLast?.toList.flatMap fun q => q.matchKeys.map fun kg => (q, kg)).length ≤ 1 by
        omega
      cases hg : a.getLast? with
      | none => simp
      | some q =>
        have := h1 q ((hall a (by simp)).2.mem q (List.mem_of_getLast? hg))
        simp [this]
  have hle := hlen.trans (length_le_of_candidates hl fun a ha => stack_candidates (hall a ha).2)
  have hany : ∀ n ≥ 8, ∀ p : Subquery × KeyWithId → Prop, AtMost n p (lastScans l) :=
    fun n hn p s hs _ => (hs.length_le.trans (hle.trans h)).trans hn
  refine ⟨?_, hany _ (by omega) _, hany _ (by omega) _, hany _ (by omega) _, hany _ (by omega) _⟩
  rintro ⟨q, kg⟩ hs _ _
  obtain ⟨st, hst, hs⟩ := List.mem_flatMap.1 hs
  obtain ⟨q', hq', hs⟩ := List.mem_flatMap.1 hs
  obtain ⟨kg', hk, he⟩ := List.mem_map.1 hs
  cases he
  exact hz q ((hall st hst).2.mem q (List.mem_of_getLast? (Option.mem_toList.1 hq')))

/-- A phrase match for all phrases of a range of a store with these rows. -/
def renameRange (db : SMap Bytes Bytes) (st en : ℕ) : Subquery :=
  ⟨Store.openWith db 6 0 0 [⟨0, 0, 63, 63⟩] 0, 0, [], 1, 1, [⟨⟨.range st en, 1⟩, false, 0, 1⟩]⟩

/-- The hypotheses hold of the two histories of C87, and there are results. -/
example : ∃ out out', stackAndCoalesce (listTreeEnv true) [renameRange (leaves renameCalls) 1 5]
      ⟨none, none, 6⟩ = some out ∧
    stackAndCoalesce (listTreeEnv true) [renameRange (leaves renameCalls') 5 20] ⟨none, none, 6⟩ =
      some out' ∧ out.length = 3 ∧ out.Perm out' := by
  have h1 : ((stackAndCoalesce (listTreeEnv true) [renameRange (leaves renameCalls) 1 5]
      ⟨none, none, 6⟩).map List.length) = some 3 := by decide +kernel
  have h2 : ((stackAndCoalesce (listTreeEnv true) [renameRange (leaves renameCalls') 5 20]
      ⟨none, none, 6⟩).map List.length) = some 3 := by decide +kernel
  obtain ⟨out, h1, h3⟩ := Option.map_eq_some_iff.1 h1
  obtain ⟨out', h2, -⟩ := Option.map_eq_some_iff.1 h2
  obtain ⟨b, hb⟩ := rename_made
  obtain ⟨b', hb'⟩ := rename_made'
  have hq : RenamedQ (renameRange (leaves renameCalls) 1 5)
      (renameRange (leaves renameCalls') 5 20) :=
    ⟨renameCalls, renameCalls', .id, .id, b, b', _, _, 6, 0, 0, 0, [⟨0, 0, 63, 63⟩],
      [⟨0, 0, 63, 63⟩], 0, 0, _, hb, hb', by decide +kernel, by decide +kernel, rfl, rfl,
      .some ⟨.range _ 1 5 5 20 (by norm_num) (by norm_num) rename_same (by decide +kernel)
        (by decide +kernel), rfl⟩⟩
  have hd : ∀ db st en, Delivered [renameRange db st en] := fun db st en =>
    ⟨by simp [renameRange], by simp [renameRange], by simp⟩
  have hz : ZoomsAscend [renameRange (leaves renameCalls) 1 5] := by
    unfold ZoomsAscend
    decide +kernel
  have hroom : RoomForGroups [renameRange (leaves renameCalls) 1 5] :=
    room_of_tiny (by decide) (by decide) (by decide +kernel)
  exact ⟨out, out', h1, h2, h3, (C87_search rfl (hd _ _ _) (hd _ _ _) (.cons ⟨hq, rfl,
      .cons ⟨rfl, fun _ _ _ _ => ⟨1, 5, rfl, by omega⟩⟩ .nil⟩ .nil)
    (few_of_small (by decide)) hz hroom (boxesCover_of (by decide +kernel))
    (boxesCover_of (by decide +kernel)) h1 h2 
    ⟨by omega, fun id => lt_of_le_of_lt (List.length_filter_le _ _) (by omega)⟩).1⟩

end Carmen

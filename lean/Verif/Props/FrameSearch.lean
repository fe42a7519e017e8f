import Verif.Lemmas.SameAnswers
import Verif.Props.Frame

/-!
# C83 for `stack_and_coalesce`
-/

namespace Carmen
open Format Spec Builder

theorem lookupOpts_zoom {env : Env} {opts : MatchOpts} {q q' : Subquery} {kg : KeyWithId}
    (h : q'.store.zoom = q.store.zoom) : lookupOpts env opts q' kg = lookupOpts env opts q kg := by
  unfold lookupOpts
  rw [h]

/-- **C83**, `stack_and_coalesce`: what is stored under phrases that are not asked for makes no
difference to the contexts a small request returns and their ranks. -/
theorem C83_search {env env' : TreeEnv} (henv : env.toEnv = env'.toEnv)
    {qs qs' : List Subquery} {opts : MatchOpts} {out out' : List Context}
    (hd : Delivered qs) (hd' : Delivered qs')
    (hq : List.Forall₂ (fun q q' => Swapped q q' ∧ q'.store.typeId = q.store.typeId) qs qs')
    (hfew : FewGroupStacks 2000 qs) (hz : ZoomsAscend qs) (hroom : RoomForGroups qs)
    (hbox : BoxesCover env.toEnv opts qs) (hbox' : BoxesCover env.toEnv opts qs')
    (hout : stackAndCoalesce env qs opts = some out)
    (hout' : stackAndCoalesce env' qs' opts = some out') (hlen : Short out) :
    out.Perm out' ∧ out.map Context.sortKey = out'.map Context.sortKey := by
  refine search_same_answers henv hd hd' ?_ rfl hfew hz hroom hbox hbox' hout hout' hlen
  have hone := hd.one
  clear hd hd' hfew hz hroom hbox hbox' hout hout'
  induction hq with
  | nil => exact .nil
  | @cons q q' l l' h1 _ ih =>
    refine .cons ?_ (ih fun q hq => hone q (List.mem_cons_of_mem _ hq))
    obtain ⟨⟨cs, cs', o, o', b, b', db, db', zoom, typeId, typeId', radius, bboxes, bboxes',
      maxScore, maxScore', hm, hm', hsm, hsm', hst, rfl, hs⟩, ht⟩ := h1
    have hk : ∀ kg ∈ q.matchKeys, kg ∈ q.matchKeys.head? := by
      intro kg hkg
      obtain ⟨k, hk⟩ := List.length_eq_one_iff.1 (hone q List.mem_cons_self)
      rw [hk] at hkg ⊢
      rw [List.mem_singleton.1 hkg]
      rfl
    have hzz : (Store.openWith db' zoom typeId' radius bboxes' maxScore').zoom = q.store.zoom := by
      rw [hst]; rfl
    have ha : ∀ kg ∈ q.matchKeys, ∀ o n, env.toEnv.query
        (Store.openWith db' zoom typeId' radius bboxes' maxScore') kg.key o n =
          env.toEnv.query q.store kg.key o n := by
      intro kg hkg o n
      rw [hst]
      exact (C83_query hm hm' hsm hsm' kg.key (hs kg (hk kg hkg)) _ _ _ o n ..).symm
    clear hst hm hm'
    generalize Store.openWith db' zoom typeId' radius bboxes' maxScore' = s' at *
    exact ⟨rfl, ht, hzz, fun kg hkg n => by
      unfold answersTo
      rw [lookupOpts_zoom (q := q) (q' := { q with store := s' }) hzz]
      simp only [ha kg hkg]⟩

/-! ## Example -/

/-- Phrase matches for phrase 7 of a store with these rows. -/
def frameMatch (db : SMap Bytes Bytes) : Subquery :=
  ⟨Store.openWith db 6 0 0 [⟨0, 0, 63, 63⟩] 0, 0, [], 1, 1, [⟨⟨.exact 7, 1⟩, false, 0, 1⟩]⟩

/-- The hypotheses hold of the two histories of C83, and there is a result. -/
example : ∃ out out', stackAndCoalesce (listTreeEnv true) [frameMatch (leaves frameCalls)]
      ⟨none, none, 6⟩ = some out ∧
    stackAndCoalesce (listTreeEnv true) [frameMatch (leaves frameCalls')] ⟨none, none, 6⟩ =
      some out' ∧ out.length = 1 ∧ out.Perm out' := by
  have h1 : ((stackAndCoalesce (listTreeEnv true) [frameMatch (leaves frameCalls)]
      ⟨none, none, 6⟩).map List.length) = some 1 := by decide +kernel
  have h2 : ((stackAndCoalesce (listTreeEnv true) [frameMatch (leaves frameCalls')]
      ⟨none, none, 6⟩).map List.length) = some 1 := by decide +kernel
  obtain ⟨out, h1, h3⟩ := Option.map_eq_some_iff.1 h1
  obtain ⟨out', h2, -⟩ := Option.map_eq_some_iff.1 h2
  obtain ⟨b, hb⟩ := frame_made
  obtain ⟨b', hb'⟩ := frame_made'
  have hsw : Swapped (frameMatch (leaves frameCalls)) (frameMatch (leaves frameCalls')) :=
    ⟨frameCalls, frameCalls', .id, .rev, b, b', _, _, 6, 0, 0, 0, [⟨0, 0, 63, 63⟩], [⟨0, 0, 63, 63⟩],
      0, 0, hb, hb', frame_small.1, frame_small.2, rfl, rfl, by
        rintro k ⟨⟩
        refine .exact 7 (by decide) fun k hk => ?_
        have hk : k.phraseId = 7 := hk
        exact frame_content k (by omega)⟩
  have hd : ∀ db, Delivered [frameMatch db] := fun db => ⟨by simp [frameMatch], by simp [frameMatch],
    by simp⟩
  have hz : ZoomsAscend [frameMatch (leaves frameCalls)] := by
    unfold ZoomsAscend
    decide +kernel
  exact ⟨out, out', h1, h2, h3, (C83_search rfl (hd _) (hd _) (.cons ⟨hsw, rfl⟩ .nil)
    (few_of_small (by decide)) hz (room_of_small (by decide) (by decide) (by
      intro q hq kg hk
      rw [List.mem_singleton.1 hq] at hk
      exact ⟨_, by rw [List.mem_singleton.1 hk]⟩)) (boxesCover_of (by decide +kernel))
    (boxesCover_of (by decide +kernel)) h1 h2
    ⟨by omega, fun id => lt_of_le_of_lt (List.length_filter_le _ _) (by omega)⟩).1⟩

end Carmen

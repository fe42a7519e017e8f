import Verif.Spec.Monotone
import Verif.Props.Exact

/-!
# C88: another phrase match takes nothing away
-/

namespace Carmen
open Spec

/-! ## A query with more room -/

theorem pushRow_length {H : Heap QueueElement.key} {n : ℕ} {q q' : List QueueElement}
    {e : QueueElement} (h : Store.pushRow H n q e = some q') : q.length ≤ q'.length := by
  unfold Store.pushRow at h
  split_ifs at h with h1
  · cases hp : H.peekMin q with
    | none => rw [hp] at h; cases h
    | some w =>
      rw [hp] at h
      simp only at h
      split_ifs at h
      · cases h
        exact le_rfl
      · cases h
        have := (H.replaceMin_perm q w e hp).length_eq
        simp only [List.length_cons] at this
        omega
  · cases h
    have := (H.push_perm q e).length_eq
    simp only [List.length_cons] at this
    omega

theorem fillQueue_length {M : KMerger} {H : Heap QueueElement.key} {chk : Bool} {s : Store}
    {mk : MatchKey} {opts : MatchOpts} {n : ℕ} {rows : List (Bytes × Bytes)} :
    ∀ {q q' : List QueueElement}, Store.fillQueue M H chk s mk opts n q rows = some q' →
      q.length ≤ q'.length := by
  induction rows with
  | nil =>
    intro q q' h
    cases h
    exact le_rfl
  | cons r t ih =>
    intro q q' h
    unfold Store.fillQueue at h
    simp only [Option.bind_eq_bind, Option.bind_eq_some_iff] at h
    obtain ⟨e, -, h2⟩ := h
    cases e with
    | none => exact ih h2
    | some e =>
      simp only [Option.bind_eq_some_iff] at h2
      obtain ⟨q1, h3, h4⟩ := h2
      exact (pushRow_length h3).trans (ih h4)

/-- A queue that did not fill up holds everything a shorter one holds. -/
theorem fillQueue_wider {M : KMerger} {H : Heap QueueElement.key} {chk : Bool} {s : Store}
    {mk : MatchKey} {opts : MatchOpts} {n n' : ℕ} (hn : 1 ≤ n') {rows : List (Bytes × Bytes)} :
    ∀ {q q' p : List QueueElement}, Store.fillQueue M H chk s mk opts n q rows = some q' →
      (∀ e ∈ q, e ∈ p) →
      ∃ p', Store.fillQueue M H chk s mk opts n' p rows = some p' ∧
        (p'.length < n' → ∀ e ∈ q', e ∈ p') := by
  induction rows with
  | nil =>
    intro q q' p h hq
    cases h
    exact ⟨p, rfl, fun _ => hq⟩
  | cons r t ih =>
    intro q q' p h hq
    unfold Store.fillQueue at h ⊢
    simp only [Option.bind_eq_bind, Option.bind_eq_some_iff] at h ⊢
    obtain ⟨e, h1, h2⟩ := h
    cases e with
    | none =>
      obtain ⟨p', h3, h4⟩ := ih h2 hq
      exact ⟨p', ⟨none, h1, h3⟩, h4⟩
    | some e =>
      simp only [Option.bind_eq_some_iff] at h2
      obtain ⟨q1, h3, h4⟩ := h2
      by_cases hl : p.length < n'
      · obtain ⟨p', h5, h6⟩ := ih (p := H.push p e) h4 (by
          intro x hx
          rw [(H.push_perm p e).mem_iff]
          rcases pushRow_mem h3 x hx with rfl | hx
          · exact List.mem_cons_self
          · exact List.mem_cons_of_mem _ (hq x hx))
        refine ⟨p', ⟨some e, h1, ?_⟩, h6⟩
        simp only [Option.bind_eq_some_iff]
        exact ⟨_, by unfold Store.pushRow; rw [if_neg (by omega)], h5⟩
      · obtain ⟨p1, hp1⟩ : ∃ p1, Store.pushRow H n' p e = some p1 := by
          unfold Store.pushRow
          rw [if_pos (by omega)]
          cases hm : H.peekMin p with
          | none =>
            rw [H.peekMin_none] at hm
            subst hm
            simp only [List.length_nil] at hl
            omega
          | some w =>
            simp only
            split_ifs
            · exact ⟨_, rfl⟩
            · exact ⟨_, rfl⟩
        have hlen := pushRow_length hp1
        -- the queue is full: only that a result exists is needed
        have hex : ∀ (rows : List (Bytes × Bytes)) {q q' p : List QueueElement},
            Store.fillQueue M H chk s mk opts n q rows = some q' →
            ∃ p', Store.fillQueue M H chk s mk opts n' p rows = some p' := by
          intro rows
          induction rows with
          | nil => exact fun _ => ⟨_, rfl⟩
          | cons r t ih =>
            intro q q' p h
            unfold Store.fillQueue at h ⊢
            simp only [Option.bind_eq_bind, Option.bind_eq_some_iff] at h ⊢
            obtain ⟨e, h1, h2⟩ := h
            cases e with
            | none =>
              obtain ⟨p', h3⟩ := ih (p := p) h2
              exact ⟨p', none, h1, h3⟩
            | some e =>
              simp only [Option.bind_eq_some_iff] at h2
              obtain ⟨q1, h3, h4⟩ := h2
              obtain ⟨p1, hp1⟩ : ∃ p1, Store.pushRow H n' p e = some p1 := by
                unfold Store.pushRow
                split_ifs with hl
                · cases hm : H.peekMin p with
                  | none =>
                    rw [H.peekMin_none] at hm
                    subst hm
                    simp only [List.length_nil] at hl
                    omega
                  | some w =>
                    simp only
                    split_ifs
                    · exact ⟨_, rfl⟩
                    · exact ⟨_, rfl⟩
                · exact ⟨_, rfl⟩
              obtain ⟨p', h5⟩ := ih (p := p1) h4
              refine ⟨p', some e, h1, ?_⟩
              simp only [Option.bind_eq_some_iff]
              exact ⟨_, hp1, h5⟩
        obtain ⟨p', h5⟩ := hex t (p := p1) h4
        have := fillQueue_length h5
        refine ⟨p', ⟨some e, h1, ?_⟩, fun h => by omega⟩
        simp only [Option.bind_eq_some_iff]
        exact ⟨_, hp1, h5⟩

/-- C88: whatever comes back with a row limit comes back with a limit that is not used up. -/
theorem C88_limit {M : KMerger} {H : Heap QueueElement.key} {chk : Bool} {s : Store} {mk : MatchKey}
    {opts : MatchOpts} {n n' : ℕ} (hn : 1 ≤ n') {l : List MatchEntry}
    (h : s.getMatching M H chk mk opts n = some l) :
    ∃ l', s.getMatching M H chk mk opts n' = some l' ∧ (l'.length < n' → ∀ g ∈ l, g ∈ l') := by
  unfold Store.getMatching at h ⊢
  simp only [Option.bind_eq_bind, Option.bind_eq_some_iff] at h ⊢
  obtain ⟨rows, h1, q, h2, h3⟩ := h
  cases h3
  obtain ⟨p, h4, h5⟩ := fillQueue_wider hn (p := []) h2 (fun e he => he)
  refine ⟨_, ⟨rows, h1, p, h4, rfl⟩, fun hlen g hg => ?_⟩
  have hp := (drain_kmerge H (Store.queueSize p) p le_rfl).perm
  have hq := (drain_kmerge H (Store.queueSize q) q le_rfl).perm
  have hpl : p.length ≤ (Store.drain H (Store.queueSize p) p).length := by
    rw [hp.length_eq]
    clear hp h4 h5 hlen
    induction p with
    | nil => exact le_rfl
    | cons a t ih =>
      simp only [List.map_cons, List.flatten_cons, List.length_cons, List.length_append,
        QueueElement.stream] at ih ⊢
      omega
  rw [hp.mem_iff, List.mem_flatten]
  rw [hq.mem_iff, List.mem_flatten] at hg
  obtain ⟨st, hst, hg⟩ := hg
  obtain ⟨e, he, rfl⟩ := List.mem_map.1 hst
  exact ⟨_, List.mem_map_of_mem (h5 (by omega) e he), hg⟩

/-! ## Stacks of more phrase matches -/

theorem isStack_mono {pms pms' qs : List Subquery} (hsub : pms ⊆ pms') (h : IsStack pms qs) :
    IsStack pms' qs :=
  ⟨fun q hq => hsub (h.mem q hq), h.types, h.masks, h.neighbours, h.root⟩

theorem extendable_mono {pms pms' qs : List Subquery} (hsub : pms ⊆ pms')
    (h : Extendable pms qs) : Extendable pms' qs := h.imp fun _ => isStack_mono hsub

/-- Hits that are not a lone one stay as they are. -/
theorem contextOf_mono {env : Env} {opts : MatchOpts} {pms pms' : List Subquery} {hs : List Hit}
    {c : Context} (hsub : pms ⊆ pms') (hl : ¬ Lone pms hs) (h : ContextOf env opts pms hs c) :
    ¬ Lone pms' hs ∧ ContextOf env opts pms' hs c := by
  have hl' : ¬ Lone pms' hs := by
    rintro ⟨x, rfl, hx⟩
    exact hl ⟨x, rfl, fun he => hx (extendable_mono hsub he)⟩
  have hlp : LosesPoints pms' hs ↔ LosesPoints pms hs := by
    refine or_congr_left ⟨?_, ?_⟩
    · rintro ⟨x, rfl, hx⟩
      by_contra hn
      exact hl ⟨x, rfl, fun he => hn ⟨x, rfl, he⟩⟩
    · rintro ⟨x, rfl, hx⟩
      exact ⟨x, rfl, extendable_mono hsub hx⟩
  exact ⟨hl', h.ne, isStack_mono hsub h.stack, fun x hx limit a b =>
    h.answers x hx limit (fun y => absurd y hl) (fun _ => b hl'), h.entries, h.tiles, h.mask,
    fun y => h.plain (fun z => y (hlp.2 z)), fun y => h.penalty (hlp.1 y), fun _ => h.first hl⟩

/-- What should be returned should be returned for more phrase matches too, unless it stands alone
and no longer does. -/
theorem shouldReturn_mono {env : Env} {opts : MatchOpts} {pms pms' : List Subquery} {c : Context}
    (hsub : pms ⊆ pms') (h : ShouldReturn env opts pms c) :
    ShouldReturn env opts pms' c ∨
      ∃ q kg o grids all, q ∈ pms ∧ IsStack pms' [q] ∧ ¬ Extendable pms [q] ∧
        Extendable pms' [q] ∧ kg ∈ q.matchKeys ∧ lookupOpts env opts q kg = some o ∧
        env.query q.store kg.key o 80 = some grids ∧
        treeSingle env q o grids kg.id = some all ∧ c ∈ all := by
  rcases h with ⟨hs, h1, h2⟩ | ⟨q, kg, o, grids, all, h1, h2, h3⟩
  · exact Or.inl (Or.inl ⟨hs, contextOf_mono hsub h1 h2⟩)
  · by_cases hx : Extendable pms' [q]
    · exact Or.inr ⟨q, kg, o, grids, all, h1.mem q (by simp), isStack_mono hsub h1, h2, hx, h3⟩
    · exact Or.inl (Or.inr ⟨q, kg, o, grids, all, isStack_mono hsub h1, hx, h3⟩)

/-- **C88**: everything returned for some phrase matches is returned again when there are more,
except the results of a phrase match that stood alone and that now something can be put below. -/
theorem C88_kept {env env' : TreeEnv} (henv : env.toEnv = env'.toEnv) {qs qs' : List Subquery}
    (hsub : qs ⊆ qs') {opts : MatchOpts} {out out' : List Context} (hd : Delivered qs)
    (hd' : Delivered qs') (hfew : FewGroupStacks 2000 qs) (hfew' : FewGroupStacks 2000 qs')
    (hz : env.chk = true ∨ ZoomsAscend qs) (hz' : env'.chk = true ∨ ZoomsAscend qs')
    (hroom : RoomForGroups qs') (hbox : BoxesCover env'.toEnv opts qs')
    (hout : stackAndCoalesce env qs opts = some out)
    (hout' : stackAndCoalesce env' qs' opts = some out') (hlen : Short out') :
    ∀ c ∈ out, c ∈ out' ∨
      ∃ q ∈ qs, AloneFrom q c ∧ ¬ Extendable qs [q] ∧ Extendable qs' [q] := by
  intro c hc
  rcases shouldReturn_mono hsub (C81_sound hd hfew hz hout c hc) with h |
    ⟨q, kg, o, grids, all, hq, -, hx, hx', hk, -, -, e3, hca⟩
  · exact Or.inl (C81_complete hd' hfew' hz' hroom hbox hout' hlen c (henv ▸ h))
  · obtain ⟨g, -, rfl⟩ := treeSingle_made e3 c hca
    obtain ⟨m1, m2⟩ := toEntry_madeFrom_id q g kg.id
    exact Or.inr ⟨q, hq, ⟨_, g, kg, rfl, hk, m1, m2, rfl, rfl⟩, hx, hx'⟩

/-- The first grid of a list with the tile and feature of another. -/
theorem first_like (g : MatchEntry) : ∀ (l : List MatchEntry), g ∈ l →
    ∃ before x after, l = before ++ x :: after ∧ x.entry.x = g.entry.x ∧ x.entry.y = g.entry.y ∧
      x.entry.id = g.entry.id ∧
      ∀ y ∈ before, ¬ (y.entry.x = x.entry.x ∧ y.entry.y = x.entry.y ∧ y.entry.id = x.entry.id) := by
  intro l
  induction l with
  | nil => intro h; cases h
  | cons a t ih =>
    intro h
    by_cases ha : a.entry.x = g.entry.x ∧ a.entry.y = g.entry.y ∧ a.entry.id = g.entry.id
    · exact ⟨[], a, t, rfl, ha.1, ha.2.1, ha.2.2, by simp⟩
    · rcases List.mem_cons.1 h with rfl | h
      · exact absurd ⟨rfl, rfl, rfl⟩ ha
      · obtain ⟨b, x, s, rfl, h1, h2, h3, h4⟩ := ih h
        refine ⟨a :: b, x, s, rfl, h1, h2, h3, ?_⟩
        intro y hy
        rcases List.mem_cons.1 hy with rfl | hy
        · rwa [h1, h2, h3]
        · exact h4 y hy

/-- **C88**: no feature found is lost when there are more phrase matches. -/
theorem C88_found {env env' : TreeEnv} (henv : env.toEnv = env'.toEnv) {qs qs' : List Subquery}
    (hsub : qs ⊆ qs') {opts : MatchOpts} {out out' : List Context} (hd : Delivered qs)
    (hd' : Delivered qs') (hfew : FewGroupStacks 2000 qs) (hfew' : FewGroupStacks 2000 qs')
    (hz : env.chk = true ∨ ZoomsAscend qs) (hz' : env'.chk = true ∨ ZoomsAscend qs')
    (hroom : RoomForGroups qs') (hbox : BoxesCover env'.toEnv opts qs')
    (hans : FewAnswers env.toEnv opts qs)
    (hout : stackAndCoalesce env qs opts = some out)
    (hout' : stackAndCoalesce env' qs' opts = some out') (hlen : Short out') :
    ∀ c ∈ out, ∃ c' ∈ out', c' = c ∨ LessPoints c c' := by
  intro c hc
  rcases shouldReturn_mono hsub (C81_sound hd hfew hz hout c hc) with h |
    ⟨q, kg, o, grids, all, hq, hst, hx, hx', hk, e1, e2, e3, hca⟩
  · exact ⟨c, C81_complete hd' hfew' hz' hroom hbox hout' hlen c (henv ▸ h), Or.inl rfl⟩
  obtain ⟨g, hg, rfl⟩ := treeSingle_made e3 c hca
  obtain ⟨l, hl, hmem⟩ := C88_limit (n' := 100000) (by omega) e2
  have hll := hans q hq kg hk o l e1 hl
  obtain ⟨before, x, after, rfl, x1, x2, x3, x4⟩ := first_like g l (hmem hll g hg)
  have hnl : ¬ Lone qs' [(⟨q, kg, x⟩ : Hit)] := by
    rintro ⟨h, hh, hn⟩
    cases hh
    exact hn hx'
  have hlp : LosesPoints qs' [(⟨q, kg, x⟩ : Hit)] := Or.inl ⟨_, rfl, hx'⟩
  have hfirst : Hit.FirstAnswer env.toEnv opts ⟨q, kg, x⟩ := by
    refine ⟨hk, o, before, after, e1, hl, ?_, x4⟩
    simp only [List.length_append, List.length_cons] at hll
    omega
  refine ⟨⟨q.mask, (toEntry x q kg.id).entry.relev - lit 0.01, [toEntry x q kg.id]⟩, ?_, Or.inr
    ⟨toEntry g q kg.id, toEntry x q kg.id, rfl, rfl, x1, x2, x3, ?_, rfl, rfl, rfl, rfl, rfl⟩⟩
  · refine C81_complete hd' hfew' hz' hroom hbox hout' hlen _ (henv ▸ Or.inl ⟨[⟨q, kg, x⟩], hnl, ?_⟩)
    refine ⟨by simp, by simpa using hst, ?_, ?_, by simp, ?_, fun h => absurd hlp h, fun _ => rfl, ?_⟩
    · intro h hh limit _ b
      rw [List.mem_singleton] at hh
      subst hh
      rw [b hnl]
      exact ⟨hk, o, _, e1, hl, by simp⟩
    · exact List.Forall₂.cons (toEntry_madeFrom_id q x kg.id) List.Forall₂.nil
    · simp [unionMask]
    · intro _ h hh
      rw [List.mem_singleton] at hh
      subst hh
      exact hfirst
  · show tmpIdOf q.idx x.entry.id = tmpIdOf q.idx g.entry.id
    rw [x3]

section
variable {C : PhraseCrate} {P : PhraseSerde C} {S : Serde}

/-- C88 for requests from JavaScript. -/
theorem C88_from_js (hC : FindsPhrases C) {T : SearchSerde} {src : Subquery → Source P S}
    {values values' : List JsValue} {qs qs' : List Subquery} {o o' : JsValue} {opts : MatchOpts}
    (h : StackRequest T src values qs o opts) (h' : StackRequest T src values' qs' o' opts)
    (hsub : qs ⊆ qs') {env env' : TreeEnv} (henv : env.chk = false)
    (he : env.toEnv = env'.toEnv) (hroom : RoomForGroups qs')
    (hbox : BoxesCover env'.toEnv opts qs') (hans : FewAnswers env.toEnv opts qs)
    (rest rest' : List JsValue) :
    ∃ out out', jsStackAndCoalesce T env (.arr values :: o :: .func :: rest) = .returned (some out) ∧
      jsStackAndCoalesce T env' (.arr values' :: o' :: .func :: rest') = .returned (some out') ∧
      (Short out' → ∀ c ∈ out,
        (c ∈ out' ∨ ∃ q ∈ qs, AloneFrom q c ∧ ¬ Extendable qs [q] ∧ Extendable qs' [q]) ∧
        ∃ c' ∈ out', c' = c ∨ LessPoints c c') := by
  obtain ⟨out, hout, hjs⟩ := h.returns hC henv rest
  obtain ⟨out', hout', hjs'⟩ := h'.returns hC (env := env') (by
    have := congrArg Env.chk he
    rw [← this]
    exact henv) rest'
  exact ⟨out, out', hjs, hjs', fun hs c hc =>
    ⟨C88_kept he hsub h.delivered h'.delivered h.few h'.few (Or.inr h.zooms) (Or.inr h'.zooms) hroom
      hbox hout hout' hs c hc,
    C88_found he hsub h.delivered h'.delivered h.few h'.few (Or.inr h.zooms) (Or.inr h'.zooms) hroom
      hbox hans hout hout' hs c hc⟩⟩

end

/-! ## A case -/

/-- Few grids answer, by looking. -/
theorem fewAnswers_of {env : Env} {opts : MatchOpts} {pms : List Subquery}
    (h : ∀ q ∈ pms, ∀ kg ∈ q.matchKeys, ((lookupOpts env opts q kg).bind fun o =>
      (env.query q.store kg.key o 100000).map fun grids => decide (grids.length < 100000)) =
        some true) : FewAnswers env opts pms := by
  intro q hq kg hk o grids e1 e2
  have := h q hq kg hk
  rw [e1, Option.bind_some, e2, Option.map_some, Option.some.injEq, decide_eq_true_eq] at this
  exact this

theorem region_street_room : RoomForGroups [regionTreeMatch, streetTreeMatch] :=
  room_of_small (by decide +kernel) (by decide +kernel) (by
    intro q hq kg hk
    simp only [List.mem_cons, List.not_mem_nil, or_false] at hq
    rcases hq with rfl | rfl <;> exact ⟨_, by rw [List.mem_singleton.1 hk]⟩)

/-- **C88**, what is lost: the two regions found for the region by itself are not among the results
once there is a phrase match for a street, but two results 0.01 below them are. So the exception in
`C88_kept` is needed. -/
theorem C88_alone_changes : ∃ out out',
    stackAndCoalesce (listTreeEnv false) [regionTreeMatch] plainOpts = some out ∧
    stackAndCoalesce (listTreeEnv false) [regionTreeMatch, streetTreeMatch] plainOpts = some out' ∧
    out.length = 2 ∧ (∀ c ∈ out, c ∉ out') ∧
    ∀ c ∈ out, ∃ c' ∈ out', c'.first.tmpId = c.first.tmpId ∧ c'.mask = c.mask ∧
      c'.relev = c.relev - lit 0.01 := by
  have h : ((stackAndCoalesce (listTreeEnv false) [regionTreeMatch] plainOpts).bind fun out =>
      (stackAndCoalesce (listTreeEnv false) [regionTreeMatch, streetTreeMatch] plainOpts).map
        fun out' => decide (out.length = 2 ∧ (∀ c ∈ out, c ∉ out') ∧
          ∀ c ∈ out, ∃ c' ∈ out', c'.first.tmpId = c.first.tmpId ∧ c'.mask = c.mask ∧
            c'.relev = c.relev - lit 0.01)) = some true := by decide +kernel
  obtain ⟨out, h1, h⟩ := Option.bind_eq_some_iff.1 h
  obtain ⟨out', h2, h⟩ := Option.map_eq_some_iff.1 h
  exact ⟨out, out', h1, h2, of_decide_eq_true h⟩

/-- The hypotheses of C88 for a street, and for a region added to it: both results for the street
are among the six. -/
example : ∃ out out', stackAndCoalesce (listTreeEnv false) [streetTreeMatch] plainOpts = some out ∧
    stackAndCoalesce (listTreeEnv false) [regionTreeMatch, streetTreeMatch] plainOpts = some out' ∧
    out.length = 2 ∧ out'.length = 6 ∧ ∀ c ∈ out, c ∈ out' ∨
      ∃ q ∈ [streetTreeMatch], AloneFrom q c ∧ ¬ Extendable [streetTreeMatch] [q] ∧
        Extendable [regionTreeMatch, streetTreeMatch] [q] := by
  have h1 : ((stackAndCoalesce (listTreeEnv false) [streetTreeMatch]
      plainOpts).map List.length) = some 2 := by decide +kernel
  have h2 : ((stackAndCoalesce (listTreeEnv false) [regionTreeMatch, streetTreeMatch]
      plainOpts).map List.length) = some 6 := by decide +kernel
  obtain ⟨out, h1, h3⟩ := Option.map_eq_some_iff.1 h1
  obtain ⟨out', h2, h4⟩ := Option.map_eq_some_iff.1 h2
  have hs : Short out' := ⟨by omega, fun id => lt_of_le_of_lt (List.length_filter_le _ _) (by omega)⟩
  exact ⟨out, out', h1, h2, h3, h4, C88_kept rfl (by simp)
    ⟨by decide +kernel, by decide +kernel, by decide +kernel⟩
    ⟨by decide +kernel, by decide +kernel, by decide +kernel⟩ (few_of_small (by decide +kernel))
    (few_of_small (by decide +kernel)) (Or.inr (by unfold ZoomsAscend; decide +kernel))
    (Or.inr (by unfold ZoomsAscend; decide +kernel)) region_street_room region_street_boxes h1 h2 hs⟩

/-- The same for the region: each region is still found. -/
example : ∃ out out', stackAndCoalesce (listTreeEnv false) [regionTreeMatch] plainOpts = some out ∧
    stackAndCoalesce (listTreeEnv false) [regionTreeMatch, streetTreeMatch] plainOpts = some out' ∧
    out.length = 2 ∧ ∀ c ∈ out, ∃ c' ∈ out', c' = c ∨ LessPoints c c' := by
  have h1 : ((stackAndCoalesce (listTreeEnv false) [regionTreeMatch]
      plainOpts).map List.length) = some 2 := by decide +kernel
  have h2 : ((stackAndCoalesce (listTreeEnv false) [regionTreeMatch, streetTreeMatch]
      plainOpts).map List.length) = some 6 := by decide +kernel
  obtain ⟨out, h1, h3⟩ := Option.map_eq_some_iff.1 h1
  obtain ⟨out', h2, h4⟩ := Option.map_eq_some_iff.1 h2
  have hs : Short out' := ⟨by omega, fun id => lt_of_le_of_lt (List.length_filter_le _ _) (by omega)⟩
  exact ⟨out, out', h1, h2, h3, C88_found rfl (by simp)
    ⟨by decide +kernel, by decide +kernel, by decide +kernel⟩
    ⟨by decide +kernel, by decide +kernel, by decide +kernel⟩ (few_of_small (by decide +kernel))
    (few_of_small (by decide +kernel)) (Or.inr (by unfold ZoomsAscend; decide +kernel))
    (Or.inr (by unfold ZoomsAscend; decide +kernel)) region_street_room region_street_boxes
    (fewAnswers_of (by decide +kernel)) h1 h2 hs⟩

/-- The hypotheses of C88 for requests from JavaScript: "main" in one index, then in two. -/
example : [foundMatch 1] ⊆ [foundMatch 1, foundMatch 2] ∧
    StackRequest worldSearch foundSource [foundItem 1] [foundMatch 1] foundOpts ⟨none, none, 6⟩ ∧
    StackRequest worldSearch foundSource [foundItem 1, foundItem 2] [foundMatch 1, foundMatch 2]
      foundOpts ⟨none, none, 6⟩ ∧ RoomForGroups [foundMatch 1, foundMatch 2] ∧
    BoxesCover (listTreeEnv false).toEnv ⟨none, none, 6⟩ [foundMatch 1, foundMatch 2] ∧
    FewAnswers (listTreeEnv false).toEnv ⟨none, none, 6⟩ [foundMatch 1] := by
  refine ⟨by simp, ⟨⟨?_, ?_, found_request.decoded, found_request.zoom, ?_,
    ⟨by decide +kernel, by decide +kernel, by decide +kernel⟩, by unfold ZoomsAscend; decide +kernel⟩,
    few_of_small (by decide +kernel)⟩, found_request, found_room, boxesCover_of (by decide +kernel),
    fewAnswers_of (by decide +kernel)⟩
  · exact .cons ⟨_, _, foundItem_stands 1 (Or.inl rfl)⟩ .nil
  · exact fun q hq => found_request.opened q (List.mem_cons.2 (Or.inl (List.mem_singleton.1 hq)))
  · exact fun q hq => found_request.weights q (List.mem_cons.2 (Or.inl (List.mem_singleton.1 hq)))

end Carmen

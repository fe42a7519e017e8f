import Verif.Lemmas.Copy
import Verif.Props.NativeStore

/-!
# A store can be copied (C71)

Reading every record of a store and writing what was read into a new builder, in any order, gives
the same database again, byte for byte.
-/

namespace Carmen
open Builder Spec

theorem stored_idem (e : GridEntry) : stored (stored e) = stored e := by
  unfold stored
  simp only [Nat.mod_mod]
  by_cases h : e.relev = lit 0.4 ∨ e.relev = lit 0.6 ∨ e.relev = lit 0.8
  · simp only [if_pos h]
  · simp only [if_neg h, ite_self]

theorem stored_wf {e : GridEntry} (h : e.Wf) : (stored e).Wf := by
  obtain ⟨h1, h2, h3, h4, h5⟩ := h
  refine ⟨h1, h2, h3, ?_, h5⟩
  change e.id % 2 ^ 24 < 2 ^ 32
  omega

theorem storedAny_wf {e : GridEntry} (h : e.Wf) : (storedAny e).Wf := by
  obtain ⟨h1, h2, h3, h4, h5⟩ := h
  refine ⟨?_, h2, h3, ?_, h5⟩
  · change e.score % 16 < 2 ^ 8
    omega
  · change e.id % 2 ^ 24 < 2 ^ 32
    omega

theorem storedAny_exact (e : GridEntry) : Exact (storedAny e) := by
  refine ⟨?_, ?_, ?_⟩
  · change e.score % 16 ≤ 15
    omega
  · change e.id % 2 ^ 24 < 2 ^ 24
    omega
  · unfold storedAny
    simp only
    split <;> simp

theorem storedAny_idem (e : GridEntry) : storedAny (storedAny e) = storedAny e := by
  have h := storedAny_exact e
  rw [C05_documented_scores h.1, stored_of_exact h]

theorem ascending_eq {l l' : List ℕ} (h : l.Pairwise (· < ·)) (h' : l'.Pairwise (· < ·))
    (hm : ∀ x, x ∈ l ↔ x ∈ l') : l = l' := by
  have hp : l.Perm l' := (List.perm_ext_iff_of_nodup (h.imp fun h => Nat.ne_of_lt h)
    (h'.imp fun h => Nat.ne_of_lt h)).2 hm
  exact hp.eq_of_pairwise (fun a b _ _ h1 h2 => absurd (h1.trans h2) (lt_irrefl a)) h h'

theorem foldl_bounds_last (cs : List Call) (bounds b : List ℕ) :
    (cs ++ [Call.loadBounds bounds]).foldl (fun b c => match c with
      | .loadBounds bs => bs
      | _ => b) b = bounds := by
  simp

theorem writes_mem {cs : List Call} {l : List (GridKey × List GridEntry)}
    (h : List.Forall₂ Writes cs l) {c : Call} (hc : c ∈ cs) : ∃ p ∈ l, Writes c p := by
  induction h with
  | nil => cases hc
  | cons hw _ ih =>
    rcases List.mem_cons.1 hc with rfl | hc
    · exact ⟨_, by simp, hw⟩
    · obtain ⟨p, hp, h⟩ := ih hc
      exact ⟨p, by simp [hp], h⟩

theorem iter_keys {o : IterOrder} {b : Builder} (hb : b.Wf) {db : SMap Bytes Bytes}
    (hfin : finish o b = some db) (hsmall : SmallRecords db) {s : Store} (hs : s.db = db) :
    ∃ l, s.iter = some l ∧ (l.map Prod.fst).Nodup ∧ (∀ p ∈ l, p.1.Wf) ∧
      (∀ p ∈ l, s.get p.1 = some (some p.2)) ∧
      ∀ k, k ∈ l.map Prod.fst ↔ SMap.find k b.data ≠ none := by
  obtain ⟨l, h1, h2, h3⟩ := C02_iter_exact o b hb db hfin hsmall s hs
  obtain ⟨ks, h4, h5⟩ := C02_keys_exact o b hb db hfin s hs
  rw [h2] at h4
  cases h4
  have hmem : ∀ k, k ∈ l.map Prod.fst ↔ k ∈ b.data.map Prod.fst := fun k => h5.mem_iff
  refine ⟨l, h1, h5.nodup_iff.2 ?_, ?_, h3, ?_⟩
  · exact hb.sorted.keys_nodup
  · intro p hp
    obtain ⟨r, hr, he⟩ := List.mem_map.1 ((hmem p.1).1 (List.mem_map_of_mem hp))
    exact he ▸ hb.keys r hr
  · intro k
    rw [hmem]
    constructor
    · intro h
      obtain ⟨r, hr, rfl⟩ := List.mem_map.1 h
      rw [(SMap.mem_iff_find hb.sorted (k := r.1) (v := r.2)).1 hr]
      simp
    · intro h
      obtain ⟨v, hv⟩ := Option.ne_none_iff_exists'.1 h
      exact List.mem_map.2 ⟨_, (SMap.mem_iff_find hb.sorted).2 hv, rfl⟩

/-- **C71.** Iterating a store and writing every record read into a new builder, with `insert` or
`append` and in any order, together with the boundaries of the store in ascending order, gives the
same database again, byte for byte. -/
theorem C71_copy (o o' : IterOrder) (cs : List Call) (hc : ∀ c ∈ cs, c.Wf)
    (hn : ∀ c ∈ cs, c.NonEmpty) (hscore : ∀ c ∈ cs, ∀ e ∈ c.entries, e.score ≤ 15)
    (b : Builder) (hrun : Builder.run cs = some b) (hasc : b.bounds.Pairwise (· < ·))
    (db : SMap Bytes Bytes) (hfin : finish o b = some db) (hsmall : SmallRecords db)
    (zoom typeId : ℕ) (radius : F64) (bboxes : List BBox) (maxScore : F64) (s : Store)
    (hs : s = Store.openWith db zoom typeId radius bboxes maxScore) :
    ∃ l, s.iter = some l ∧
      ∀ (l' : List (GridKey × List GridEntry)) (calls : List Call) (bounds : List ℕ), l'.Perm l →
        List.Forall₂ Writes calls l' → bounds.Pairwise (· < ·) → (∀ x, x ∈ bounds ↔ x ∈ s.bounds) →
        ∃ b', Builder.run (calls ++ [.loadBounds bounds]) = some b' ∧ finish o' b' = some db := by
  have hr := refines_run hc hrun
  have hdb : s.db = db := by rw [hs]; rfl
  have hsb : s.bounds = b.bounds := by
    rw [hs]
    exact C14_boundaries_survive o b hr.wf.bounds db hfin zoom typeId radius bboxes maxScore
  obtain ⟨l, h1, h2, h3, h4, h5⟩ := iter_keys hr.wf hfin hsmall hdb
  refine ⟨l, h1, fun l' calls bounds hperm hw hbs hmem => ?_⟩
  have hbounds : bounds = b.bounds := ascending_eq hbs hasc (by rw [← hsb]; exact hmem)
  -- what a record read holds
  have hread : ∀ p ∈ l', ∃ es, Content.run cs p.1 = some es ∧  (∀ v ∈ p.2, v.Wf) ∧
      ∀ v, v ∈ p.2.map stored ↔ v ∈ es.map stored := by
    intro p hp
    have hp := hperm.mem_iff.1 hp
    have hg := h4 p hp
    rw [C06_history_is_map_of_sets o cs hc hscore b hrun db hfin hsmall s hdb p.1 (h3 p hp)] at hg
    obtain ⟨es, hes, he⟩ := Option.map_eq_some_iff.1 (Option.some.inj hg)
    have hwf : ∀ v ∈ es, v.Wf := fun v hv => by
      obtain ⟨c, hcm, hve⟩ := content_entries hes v hv
      exact call_entries_wf (hc c hcm) v hve
    have hin : ∀ v, v ∈ p.2 ↔ v ∈ es.map stored := by
      rw [← he]
      refine (C04_read_back_order _ ?_).1
      intro e hem
      obtain ⟨v, hv, rfl⟩ := List.mem_map.1 hem
      have := stored_wf (hwf v hv)
      exact ⟨this.2.1, this.2.2.1⟩
    refine ⟨es, hes, ?_, ?_⟩
    · intro v hv
      obtain ⟨u, hu, rfl⟩ := List.mem_map.1 ((hin v).1 hv)
      exact stored_wf (hwf u hu)
    · intro v
      simp only [List.mem_map] at hin ⊢
      constructor
      · rintro ⟨u, hu, rfl⟩
        obtain ⟨w, hw, rfl⟩ := (hin u).1 hu
        exact ⟨w, hw, (stored_idem w).symm⟩
      · rintro ⟨u, hu, rfl⟩
        exact ⟨stored u, (hin _).2 ⟨u, hu, rfl⟩, stored_idem u⟩
  have hcw : ∀ c ∈ calls ++ [Call.loadBounds bounds], c.Wf := by
    intro c hcm
    rcases List.mem_append.1 hcm with hcm | hcm
    · obtain ⟨p, hp, hw⟩ := writes_mem hw hcm
      obtain ⟨es, -, hv, -⟩ := hread p hp
      have := h3 p (hperm.mem_iff.1 hp)
      rcases hw with rfl | rfl <;> exact ⟨this, hv⟩
    · rw [List.mem_singleton.1 hcm, hbounds]
      exact hr.wf.bounds
  have hcn : ∀ c ∈ calls ++ [Call.loadBounds bounds], c.NonEmpty := by
    intro c hcm
    rcases List.mem_append.1 hcm with hcm | hcm
    · obtain ⟨p, hp, hw⟩ := writes_mem hw hcm
      rcases hw with rfl | rfl <;> trivial
    · rw [List.mem_singleton.1 hcm]
      trivial
  obtain ⟨b', hb'⟩ := run_writes hw bounds Builder.new
  refine ⟨b', hb', ?_⟩
  rw [← hfin]
  have hr' := refines_run hcw hb'
  have hcont : Content.run (calls ++ [.loadBounds bounds]) = Content.run calls := by
    unfold Content.run
    rw [List.foldl_append]
    rfl
  have hnd' : (l'.map Prod.fst).Nodup := (hperm.map Prod.fst).nodup_iff.2 h2
  obtain ⟨hc1, hc2⟩ := content_writes hw (fun _ => none) hnd' (fun _ _ => rfl)
  refine finish_of_stored hr' hr (ne_run hcw hcn hb') (ne_run hc hn hrun) ?_ ?_
  · rw [bounds_runFrom hb', ← hbounds]
    exact foldl_bounds_last calls bounds _
  · intro k
    rw [hcont]
    have hk : k ∈ l'.map Prod.fst ↔ Content.run cs k ≠ none := by
      rw [(hperm.map Prod.fst).mem_iff, h5, ne_eq, hr.absent]
    by_cases hkm : k ∈ l'.map Prod.fst
    · obtain ⟨p, hp, rfl⟩ := List.mem_map.1 hkm
      obtain ⟨es, hes, -, hsame⟩ := hread p hp
      have hp2 : Content.run calls p.1 = some p.2 := hc1 p hp
      rw [hp2, hes]
      refine ⟨by simp, ?_⟩
      intro u w hu hw'
      cases hu
      cases hw'
      exact hsame
    · have hnone : Content.run calls k = none := hc2 k hkm
      rw [hnone, not_not.1 (mt hk.2 hkm)]
      simp

/-- **C71**, entries of any score and any history: the copy has the same keys, and `get` on it returns
the same entries for every key. -/
theorem C71_copy_reads (o o' : IterOrder) (cs : List Call) (hc : ∀ c ∈ cs, c.Wf)
    (b : Builder) (hrun : Builder.run cs = some b) (db : SMap Bytes Bytes)
    (hfin : finish o b = some db) (hsmall : SmallRecords db) (s : Store) (hs : s.db = db) :
    ∃ l, s.iter = some l ∧
      ∀ (l' : List (GridKey × List GridEntry)) (calls : List Call) (bounds : List ℕ), l'.Perm l →
        List.Forall₂ Writes calls l' → (∀ x ∈ bounds, x < 2 ^ 32) →
        ∃ b' db', Builder.run (calls ++ [.loadBounds bounds]) = some b' ∧
          finish o' b' = some db' ∧
          (SmallRecords db' → ∀ s' : Store, s'.db = db' →
            (∃ ks ks', s.keys = some ks ∧ s'.keys = some ks' ∧ ks'.Perm ks) ∧
            ∀ k, k.Wf → (s.get k = some none ∧ s'.get k = some none) ∨
              ∃ es es', s.get k = some (some es) ∧ s'.get k = some (some es') ∧
                ∀ e, e ∈ es' ↔ e ∈ es) := by
  have hr := refines_run hc hrun
  obtain ⟨l, h1, h2, h3, h4, h5⟩ := iter_keys hr.wf hfin hsmall hs
  refine ⟨l, h1, fun l' calls bounds hperm hw hbs => ?_⟩
  have hread : ∀ p ∈ l', ∃ es, Content.run cs p.1 = some es ∧
      ∀ v, v ∈ p.2 ↔ ∃ e ∈ es, v = storedAny e := by
    intro p hp
    have hp := hperm.mem_iff.1 hp
    have hne : Content.run cs p.1 ≠ none := by
      rw [ne_eq, ← hr.absent]
      exact (h5 p.1).1 (List.mem_map_of_mem hp)
    obtain ⟨es, hes⟩ := Option.ne_none_iff_exists'.1 hne
    obtain ⟨rs, hrs, hv⟩ := C05_score_overflow_partial o cs hc b hrun db hfin hsmall s hs p.1
      (h3 p hp) es hes
    rw [h4 p hp] at hrs
    cases hrs
    exact ⟨es, hes, hv⟩
  have hvwf : ∀ p ∈ l', ∀ v ∈ p.2, v.Wf := by
    intro p hp v hv
    obtain ⟨es, hes, hin⟩ := hread p hp
    obtain ⟨e, he, rfl⟩ := (hin v).1 hv
    obtain ⟨c, hcm, hec⟩ := content_entries hes e he
    exact storedAny_wf (call_entries_wf (hc c hcm) e hec)
  have hcw : ∀ c ∈ calls ++ [Call.loadBounds bounds], c.Wf := by
    intro c hcm
    rcases List.mem_append.1 hcm with hcm | hcm
    · obtain ⟨p, hp, hw⟩ := writes_mem hw hcm
      have := h3 p (hperm.mem_iff.1 hp)
      rcases hw with rfl | rfl <;> exact ⟨this, hvwf p hp⟩
    · rw [List.mem_singleton.1 hcm]
      exact hbs
  obtain ⟨b', hb'⟩ := run_writes hw bounds Builder.new
  have hr' := refines_run hcw hb'
  have hcont : Content.run (calls ++ [.loadBounds bounds]) = Content.run calls := by
    unfold Content.run
    rw [List.foldl_append]
    rfl
  have hnd' : (l'.map Prod.fst).Nodup := (hperm.map Prod.fst).nodup_iff.2 h2
  obtain ⟨hc1, hc2⟩ := content_writes hw (fun _ => none) hnd' (fun _ _ => rfl)
  have hkeys : ∀ k, k ∈ b'.data.map Prod.fst ↔ k ∈ b.data.map Prod.fst := by
    have hfind : ∀ {b : Builder}, b.Wf → ∀ k, k ∈ b.data.map Prod.fst ↔
        SMap.find k b.data ≠ none := by
      intro b hb k
      constructor
      · intro h
        obtain ⟨r, hr, rfl⟩ := List.mem_map.1 h
        rw [(SMap.mem_iff_find hb.sorted (k := r.1) (v := r.2)).1 hr]
        simp
      · intro h
        obtain ⟨v, hv⟩ := Option.ne_none_iff_exists'.1 h
        exact List.mem_map.2 ⟨_, (SMap.mem_iff_find hb.sorted).2 hv, rfl⟩
    intro k
    rw [hfind hr'.wf, hfind hr.wf, ← h5, ne_eq, hr'.absent, hcont, ← (hperm.map Prod.fst).mem_iff]
    by_cases hkm : k ∈ l'.map Prod.fst
    · obtain ⟨p, hp, rfl⟩ := List.mem_map.1 hkm
      have hp2 : Content.run calls p.1 = some p.2 := hc1 p hp
      simp [hp2, hkm]
    · have hnone : Content.run calls k = none := hc2 k hkm
      simp only [hnone, hkm, not_true_eq_false]
  have hlast : ∀ r ∈ b'.data, r.1.phraseId ≠ 2 ^ 32 - 1 := by
    intro r hr1
    obtain ⟨r2, hr2, he⟩ := List.mem_map.1 ((hkeys r.1).1 (List.mem_map_of_mem hr1))
    rw [← he]
    exact (C11_finish_returns_partial o b hr.wf).1 ⟨db, hfin⟩ r2 hr2
  obtain ⟨db', hdb'⟩ := (C11_finish_returns_partial o' b' hr'.wf).2 hlast
  refine ⟨b', db', hb', hdb', fun hsmall' s' hs' => ⟨?_, fun k hk => ?_⟩⟩
  · obtain ⟨ks, hk1, hk2⟩ := C02_keys_exact o b hr.wf db hfin s hs
    obtain ⟨ks', hk3, hk4⟩ := C02_keys_exact o' b' hr'.wf db' hdb' s' hs'
    refine ⟨ks, ks', hk1, hk3, hk4.trans (List.Perm.trans ?_ hk2.symm)⟩
    exact (List.perm_ext_iff_of_nodup hr'.wf.sorted.keys_nodup hr.wf.sorted.keys_nodup).2 hkeys
  · by_cases hkm : k ∈ l'.map Prod.fst
    · right
      obtain ⟨p, hp, rfl⟩ := List.mem_map.1 hkm
      obtain ⟨es, hes, hin⟩ := hread p hp
      have hp2 : Content.run (calls ++ [.loadBounds bounds]) p.1 = some p.2 := by
        rw [hcont]
        exact hc1 p hp
      obtain ⟨rs, hrs, hv⟩ := C05_score_overflow_partial o' _ hcw b' hb' db' hdb' hsmall' s' hs'
        p.1 hk p.2 hp2
      refine ⟨p.2, rs, h4 p (hperm.mem_iff.1 hp), hrs, fun e => ?_⟩
      rw [hv]
      constructor
      · rintro ⟨u, hu, rfl⟩
        obtain ⟨w, hw, rfl⟩ := (hin u).1 hu
        rw [storedAny_idem]
        exact hu
      · intro he
        obtain ⟨w, hw, rfl⟩ := (hin e).1 he
        exact ⟨_, he, (storedAny_idem w).symm⟩
    · left
      have hn1 : SMap.find k b.data = none := by
        by_contra h
        exact hkm ((hperm.map Prod.fst).mem_iff.2 ((h5 k).2 h))
      have hn2 : SMap.find k b'.data = none := by
        rw [hr'.absent, hcont]
        exact hc2 k hkm
      constructor
      · unfold Store.get
        rw [hs, find_finish hr.wf hfin hk, hn1]
        rfl
      · unfold Store.get
        rw [hs', find_finish hr'.wf hdb' hk, hn2]
        rfl

/-- The bytes that are written depend only on the entries kept under each key and on the boundaries:
not on what rounding discards. -/
theorem C71_bytes_depend_on_kept (o o' : IterOrder) (cs cs' : List Call)
    (hc : ∀ c ∈ cs, c.Wf) (hc' : ∀ c ∈ cs', c.Wf)
    (hn : ∀ c ∈ cs, c.NonEmpty) (hn' : ∀ c ∈ cs', c.NonEmpty)
    (b b' : Builder) (hrun : Builder.run cs = some b) (hrun' : Builder.run cs' = some b')
    (hbounds : lastBounds cs = lastBounds cs')
    (hkept : ∀ k, (Content.run cs k = none ↔ Content.run cs' k = none) ∧
      ∀ es es', Content.run cs k = some es → Content.run cs' k = some es' →
        ∀ e, e ∈ es.map stored ↔ e ∈ es'.map stored) :
    finish o b = finish o' b' :=
  finish_of_stored (refines_run hc hrun) (refines_run hc' hrun') (ne_run hc hn hrun)
    (ne_run hc' hn' hrun') (by
      rw [bounds_runFrom hrun, bounds_runFrom hrun']
      exact hbounds) hkept

/-- A JavaScript call that writes the record read for a key: the key object the iterator made, and a
value that is read as the entries. -/
def Spec.JsWrites (S : Serde) (c : JsCall) (p : GridKey × List GridEntry) : Prop :=
  ∃ v, S.entries v = some p.2 ∧ (c = .insert [keyObject p.1, v] ∨ c = .append [keyObject p.1, v])

theorem jsWrites_means {S : Serde} {cs : List JsCall} {l : List (GridKey × List GridEntry)}
    (h : List.Forall₂ (JsWrites S) cs l) (hk : ∀ p ∈ l, p.1.Wf) :
    ∃ ds, List.Forall₂ (Means S) cs ds ∧ List.Forall₂ Writes ds l := by
  induction h with
  | nil => exact ⟨[], .nil, .nil⟩
  | @cons c p cs l hw _ ih =>
    obtain ⟨ds, h1, h2⟩ := ih fun p hp => hk p (by simp [hp])
    obtain ⟨v, hv, rfl | rfl⟩ := hw
    · exact ⟨.insert p.1 p.2 :: ds, .cons (.insert (keyObject_means (hk p (by simp))) hv) h1,
        .cons (.inl rfl) h2⟩
    · exact ⟨.append p.1 p.2 :: ds, .cons (.append (keyObject_means (hk p (by simp))) hv) h1,
        .cons (.inr rfl) h2⟩

theorem nativeRun_of_run {b b' : Builder} {ds : List Call} (h : b.runFrom ds = some b') :
    nativeRun b (ds.map some) = (b', List.replicate ds.length true) := by
  induction ds generalizing b with
  | nil =>
    simp only [Builder.runFrom, Option.some.injEq] at h
    subst h
    rfl
  | cons d t ih =>
    unfold Builder.runFrom at h
    cases hb : b.call d with
    | none => rw [hb] at h; cases h
    | some b₁ =>
      rw [hb] at h
      simp only [List.map_cons, nativeRun, native_call hb, ih h]
      rfl

/-- **C71**, from JavaScript: walking the key iterator, reading each key with `get`, and writing what
was read under the key object into a new builder gives the same database again. -/
theorem C71_from_js (S : Serde) (o o' : IterOrder) (cs : List Call) (hc : ∀ c ∈ cs, c.Wf)
    (hn : ∀ c ∈ cs, c.NonEmpty) (hscore : ∀ c ∈ cs, ∀ e ∈ c.entries, e.score ≤ 15)
    (b : Builder) (hrun : Builder.run cs = some b) (hasc : b.bounds.Pairwise (· < ·))
    (db : SMap Bytes Bytes) (hfin : finish o b = some db) (hsmall : SmallRecords db)
    (zoom typeId : ℕ) (radius : F64) (bboxes : List BBox) (maxScore : F64) (s : Store)
    (hs : s = Store.openWith db zoom typeId radius bboxes maxScore) :
    ∃ l : List (GridKey × List GridEntry), s.iter = some l ∧
      (∀ n, nextResults n (jsKeys s) = some (expectedResults (l.map Prod.fst) n)) ∧
      (∀ p ∈ l, jsGet s [keyObject p.1] = some (.returned (some p.2))) ∧
      ∀ (calls : List JsCall) (bounds : List ℕ), List.Forall₂ (JsWrites S) calls l →
        bounds.Pairwise (· < ·) → (∀ x, x ∈ bounds ↔ x ∈ s.bounds) →
        JsBuilder.run S o' (.new [])
            (calls ++ [.loadBinBoundaries [bufferOf bounds], .finish .none]) =
          some (⟨none, db⟩, List.replicate (calls.length + 2) true) := by
  have hr := refines_run hc hrun
  have hdb : s.db = db := by rw [hs]; rfl
  obtain ⟨l, h1, h2⟩ := C71_copy o o' cs hc hn hscore b hrun hasc db hfin hsmall zoom typeId radius
    bboxes maxScore s hs
  obtain ⟨l', h1', -, h3, h4, -⟩ := iter_keys hr.wf hfin hsmall hdb
  rw [h1] at h1'
  cases h1'
  have hkeys : s.keys = some (l.map Prod.fst) := by
    obtain ⟨l', h5, h6, -⟩ := C02_iter_exact o b hr.wf db hfin hsmall s hdb
    rw [h1] at h5
    cases h5
    exact h6
  refine ⟨l, h1, fun n => nextResults_eq n _ _ hkeys, fun p hp => ?_, fun calls bounds hw hb hm => ?_⟩
  · rw [jsGet_keyObject (keyObject_means (h3 p hp)), h4 p hp]
    rfl
  · obtain ⟨ds, hds, hw'⟩ := jsWrites_means hw h3
    obtain ⟨b', hb', hf'⟩ := h2 l ds bounds (.refl _) hw' hb hm
    have hlt : ∀ x ∈ bounds, x < 2 ^ 32 := by
      intro x hx
      refine hr.wf.bounds x ?_
      rw [← C14_boundaries_survive o b hr.wf.bounds db hfin zoom typeId radius bboxes maxScore,
        ← hs]
      exact (hm x).1 hx
    obtain ⟨buf, hbuf, hu⟩ := bufferOf_u32s hlt
    have hall : List.Forall₂ (Means S) (calls ++ [.loadBinBoundaries [bufferOf bounds]])
        (ds ++ [.loadBounds bounds]) :=
      List.rel_append hds (.cons (by rw [hbuf]; exact .loadBinBoundaries hu) .nil)
    rw [List.append_cons, run_append]
    unfold JsBuilder.new
    rw [C49_same_as_native hall, nativeRun_of_run hb', Option.bind_some]
    have hlen := hds.length_eq
    have hfi : finishInto o' [] b' = some db := hf'
    simp only [JsBuilder.run, (C49_finish S o' .none _ []).2, hfi, Option.map_some,
      Option.bind_eq_bind, Option.bind_some, List.length_append, List.length_singleton, ← hlen]
    rw [show calls.length + 2 = calls.length + 1 + 1 from rfl, List.replicate_succ' (n := calls.length + 1)]

/-! ## A case -/

/-- The store of the example history has three records and boundaries; the theorem applies to it, and
copying it in reverse order, alternating `insert` and `append`, gives its bytes. -/
example : ∃ b db l, Builder.run exampleCalls = some b ∧ finish .id b = some db ∧
    SmallRecords db ∧ b.bounds.Pairwise (· < ·) ∧ (∀ c ∈ exampleCalls, c.NonEmpty) ∧
    (∀ c ∈ exampleCalls, ∀ e ∈ c.entries, e.score ≤ 15) ∧ l.length = 3 ∧
    (Store.new db).iter = some l ∧
    ((Builder.run ((l.reverse.zipIdx.map fun p =>
        if p.2 % 2 = 0 then Call.insert p.1.1 p.1.2 else Call.append p.1.1 p.1.2) ++
      [.loadBounds (Store.new db).bounds])).bind (finish .id)) = some db := by
  have h : ((Builder.run exampleCalls).bind fun b => (finish .id b).bind fun db =>
      ((Store.new db).iter).map fun l => (b, db, l)).any (fun r =>
      decide (SmallRecords r.2.1) && decide (r.1.bounds.Pairwise (· < ·)) &&
      decide (r.2.2.length = 3) &&
      decide (((Builder.run ((r.2.2.reverse.zipIdx.map fun p =>
        if p.2 % 2 = 0 then Call.insert p.1.1 p.1.2 else Call.append p.1.1 p.1.2) ++
        [.loadBounds (Store.new r.2.1).bounds])).bind (finish .id)) = some r.2.1)) = true := by
    decide +kernel
  rw [Option.any_eq_true] at h
  obtain ⟨r, hr, h⟩ := h
  obtain ⟨b, hb, hr⟩ := Option.bind_eq_some_iff.1 hr
  obtain ⟨db, hdb, hr⟩ := Option.bind_eq_some_iff.1 hr
  obtain ⟨l, hl, rfl⟩ := Option.map_eq_some_iff.1 hr
  simp only [Bool.and_eq_true, decide_eq_true_eq] at h
  refine ⟨b, db, l, hb, hdb, h.1.1.1, h.1.1.2, ?_, ?_, h.1.2, hl, h.2⟩
  · intro c hc
    simp only [exampleCalls, List.mem_cons, List.not_mem_nil, or_false] at hc
    rcases hc with rfl | rfl | rfl | rfl | rfl | rfl <;> simp [Call.NonEmpty]
  · decide +kernel

end Carmen

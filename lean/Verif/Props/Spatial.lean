import Verif.Lemmas.ZOrder
import Verif.Props.Query

/-!
# C20, C21: proximity order
-/

namespace Carmen
open Format Spec Builder

/-- C20. With a proximity point and no box, all tiles of a list (as stored: strictly
descending along the z-order curve) are delivered, each once, in non-decreasing order of
distance along the curve from the point. -/
theorem C20_tiles_in_z_order (cs : List Coord) (hcs : cs.Pairwise (fun a b => b.coord < a.coord))
    (x y : ℕ) (zoom : ℕ) :
    (selectCoords ⟨none, some (x, y), zoom⟩ cs).Perm cs ∧
    (selectCoords ⟨none, some (x, y), zoom⟩ cs).Nodup ∧
    (selectCoords ⟨none, some (x, y), zoom⟩ cs).Pairwise (fun a b =>
      ((a.coord : ℤ) - interleave x y).natAbs ≤ ((b.coord : ℤ) - interleave x y).natAbs) := by
  obtain ⟨h1, h2⟩ := proximity_spec (p := (x, y)) (show Descending cs from hcs)
  refine ⟨h1, h1.nodup_iff.2 ?_, h2⟩
  exact hcs.imp (fun {a b} h he => by rw [he] at h; exact lt_irrefl _ h)

example : selectCoords ⟨none, some (1, 1), 14⟩ [⟨12, 0⟩, ⟨6, 0⟩, ⟨3, 0⟩, ⟨2, 0⟩, ⟨0, 0⟩] =
    [⟨3, 0⟩, ⟨2, 0⟩, ⟨0, 0⟩, ⟨6, 0⟩, ⟨12, 0⟩] := by decide +kernel

/-- C21. With a box and a proximity point, the tiles delivered are exactly those in the box,
each once, in non-decreasing order of distance along the z-order curve, wherever the point
lies. -/
theorem C21_box_tiles_in_z_order (cs : List Coord)
    (hcs : cs.Pairwise (fun a b => b.coord < a.coord)) (h32 : ∀ c ∈ cs, c.coord < 2 ^ 32)
    (box : BBox) (hbox : box.maxX < 2 ^ 16 ∧ box.maxY < 2 ^ 16) (x y : ℕ) (zoom : ℕ) :
    (selectCoords ⟨some box, some (x, y), zoom⟩ cs).Perm (cs.filter (fun c =>
      decide (box.minX ≤ (deinterleave c.coord).1 ∧ (deinterleave c.coord).1 ≤ box.maxX ∧
        box.minY ≤ (deinterleave c.coord).2 ∧ (deinterleave c.coord).2 ≤ box.maxY))) ∧
    (selectCoords ⟨some box, some (x, y), zoom⟩ cs).Nodup ∧
    (selectCoords ⟨some box, some (x, y), zoom⟩ cs).Pairwise (fun a b =>
      ((a.coord : ℤ) - interleave x y).natAbs ≤ ((b.coord : ℤ) - interleave x y).natAbs) := by
  obtain ⟨h1, h2⟩ := bboxProximity_spec (p := (x, y)) (show Descending cs from hcs) h32 hbox.1 hbox.2
  have hf : (fun c : Coord => inBox box c.coord) = (fun c =>
      decide (box.minX ≤ (deinterleave c.coord).1 ∧ (deinterleave c.coord).1 ≤ box.maxX ∧
        box.minY ≤ (deinterleave c.coord).2 ∧ (deinterleave c.coord).2 ≤ box.maxY)) := by
    funext c
    unfold inBox
    rw [Bool.eq_iff_iff]
    simp [and_assoc]
  rw [hf] at h1
  refine ⟨h1, h1.nodup_iff.2 (List.Nodup.filter _ ?_), h2⟩
  exact hcs.imp (fun {a b} h he => by rw [he] at h; exact lt_irrefl _ h)

/-- A point outside the box. -/
example : selectCoords ⟨some ⟨0, 0, 1, 1⟩, some (3, 3), 14⟩
      [⟨12, 0⟩, ⟨6, 0⟩, ⟨3, 0⟩, ⟨2, 0⟩, ⟨0, 0⟩] = [⟨3, 0⟩, ⟨2, 0⟩, ⟨0, 0⟩] := by decide +kernel

/-- A query answered by one key yields the stream of its row. -/
theorem single_key_query {o : IterOrder} {b : Builder} {db : SMap Bytes Bytes} {s : Store}
    {opts : MatchOpts} (hb : b.Wf) (hfin : finish o b = some db) (hsmall : SmallRecords db)
    (hs : s.db = db) (ho : OptsWf opts) (hn : NumbersOk opts s.radius) (M : KMerger)
    (H : Heap QueueElement.key) (chk : Bool) (hbf : BoxFit chk opts) (mk : MatchKey) {st en : ℕ}
    (hp : s.fetchPlan chk mk.phrase = some (st, en, .singlePhrase)) (hst : st < 2 ^ 32)
    {k : GridKey} {e : BuilderEntry} (hke : (k, e) ∈ b.data)
    (hks : ∀ k', k' ∈ [k] ↔ k' ∈ b.data.map Prod.fst ∧ st ≤ k'.phraseId ∧ k'.phraseId < en)
    {n : ℕ} (hlim : 1 ≤ n) :
    (encodeValue o e).length < 2 ^ 32 ∧
    s.getMatching M H chk mk opts n =
      decodeMatching M chk opts (langMatches mk.langSet k.langSet) s.radius (encodeValue o e) := by
  have hkw : k.Wf := hb.keys _ hke
  have hf := find_finish hb hfin hkw
  rw [(SMap.mem_iff_find hb.sorted).1 hke, Option.map_some] at hf
  have hrows := queryRows_eq (mk := mk) (laidOut_finish hb hfin hsmall) hs hp hst
  have hperm := single_rows_perm hb hfin (ks := [k]) (by simp) hks
  rw [List.map_singleton, hf, Option.getD_some] at hperm
  have hsing := List.perm_singleton.1 hperm
  obtain ⟨q, dropped, out, h1, h2, h3⟩ := getMatching_rows (H := H) (n := n) hrows _
    (rowElement_rows (laidOut_finish hb hfin hsmall) ho hbf hn M mk) (Or.inl hlim)
  rw [h1]
  have hmem : (k.dbKey .singlePhrase, encodeValue o e) ∈ db.filter (inRange .singlePhrase st en) := by
    rw [hsing]; simp
  refine ⟨hsmall _ (List.mem_filter.1 hmem).1, ?_⟩
  obtain ⟨_, k', _, _, hk', _, _, hkk, _, _, _, hdm, _, _⟩ := row_answers (laidOut_finish hb hfin hsmall) ho hbf hn M mk hmem
  have : k' = k := ((dbKey_inj hkw hk' (congrArg Prod.fst hkk)).2).symm
  subst this
  simp only at hdm
  rw [hdm]
  rw [hsing, List.map_singleton] at h2
  generalize rowOut M s mk opts (k'.dbKey .singlePhrase, encodeValue o e) = L at h2
  congr 1
  cases L with
  | nil =>
    have hq : q = [] := by
      have := h2.size
      rw [show ([[]] : List (List MatchEntry)).filterMap elemOf = [] from rfl] at this
      exact List.length_eq_zero_iff.1 (by simpa using this)
    subst hq
    exact List.perm_nil.1 h3.perm
  | cons x t =>
    have hq : q.length = 1 := by
      have := h2.size
      simp only [List.filterMap_cons, elemOf, List.filterMap_nil, List.length_singleton] at this
      omega
    obtain ⟨y, rfl⟩ := List.length_eq_one_iff.1 hq
    have hy : y = ⟨x, t⟩ := by
      have := h2.perm.mem_iff.1 (List.mem_append_left _ (List.mem_singleton.2 rfl))
      simpa [elemOf] using this
    subst hy
    have := h3.eq_flatten (List.Perm.refl _) (by simp)
    simpa [QueueElement.stream] using this

/-- C20, C21 for a whole query that one stored key answers: the results are exactly the
stored entries in the box (if there is one), and results of the same relevance and score come
out in non-decreasing order of distance along the z-order curve. -/
theorem C21_query_in_z_order (o : IterOrder) (cs : List Call) (hc : ∀ c ∈ cs, c.Wf)
    (hscore : ∀ c ∈ cs, ∀ e ∈ c.entries, e.score ≤ 15)
    (b : Builder) (hrun : Builder.run cs = some b)
    (db : SMap Bytes Bytes) (hfin : finish o b = some db) (hsmall : SmallRecords db)
    (s : Store) (hs : s.db = db) (M : KMerger) (H : Heap QueueElement.key) (chk : Bool)
    (st en lang : ℕ) (hst : st < 2 ^ 32) (hsingle : ¬ (st ∈ s.bounds ∧ en ∈ s.bounds))
    (box : Option BBox) (x y zoom : ℕ) (hzoom : zoom ≤ 16) (hrad : s.radius ≠ .nan)
    (ho : OptsWf ⟨box, some (x, y), zoom⟩) (hbf : BoxFit chk ⟨box, some (x, y), zoom⟩)
    (k : GridKey) (hks : KeysFor (Content.run cs) (.range st en) [k])
    (n : ℕ) (hlim : 1 ≤ n) :
    ∃ out, s.getMatching M H chk ⟨.range st en, lang⟩ ⟨box, some (x, y), zoom⟩ n = some out ∧
      out.Perm (answer (Content.run cs) ⟨box, some (x, y), zoom⟩ s.radius lang [k]) ∧
      out.Pairwise (fun r r' => r.entry.relev = r'.entry.relev → r.entry.score = r'.entry.score →
        ((interleave r.entry.x r.entry.y : ℤ) - interleave x y).natAbs ≤
          ((interleave r'.entry.x r'.entry.y : ℤ) - interleave x y).natAbs) := by
  have hb := (refines_run hc hrun).wf
  have hn : NumbersOk ⟨box, some (x, y), zoom⟩ s.radius := fun _ => ⟨hzoom, hrad⟩
  have hplan : s.fetchPlan chk (.range st en) = some (st, en, .singlePhrase) := by
    unfold Store.fetchPlan; simp [hsingle]
  obtain ⟨out, h1, h2⟩ := query_content o cs hc hscore b hrun db hfin hsmall s hs M H chk
    ⟨.range st en, lang⟩ ⟨box, some (x, y), zoom⟩ ho hbf hn st en hplan hst [k] hks.1
    (fun k' => hks.2 k') n (by simpa using hlim)
  refine ⟨out, h1, h2, ?_⟩
  have hks' : ∀ k', k' ∈ [k] ↔ k' ∈ b.data.map Prod.fst ∧ st ≤ k'.phraseId ∧ k'.phraseId < en := by
    intro k'; rw [hks.2, content_isSome_iff hc hrun]; rfl
  obtain ⟨⟨k', e⟩, hpd, hkk⟩ := List.mem_map.1 ((hks' k).1 (by simp)).1
  simp only at hkk
  subst hkk
  obtain ⟨hlen, hq⟩ := single_key_query (s := s) hb hfin hsmall hs ho hn M H chk hbf ⟨.range st en, lang⟩ hplan
    hst hpd hks' hlim
  rw [h1] at hq
  obtain ⟨rec, hra, hsh⟩ := encodeValue_readsAs o e (hb.entries _ hpd).2 hlen
  have hso : ShapeOk (shape rec) := by
    rw [hsh]; exact shapeOk_normEntry (hb.entries _ hpd).1 (hb.entries _ hpd).2
  have hlow := low_run hc hscore hrun _ hpd
  exact decodeMatching_zorder M _ ho rfl hn hra hso (low_record hlow hsh) hq.symm

/-- The same for C20: no box. -/
theorem C20_query_in_z_order (o : IterOrder) (cs : List Call) (hc : ∀ c ∈ cs, c.Wf)
    (hscore : ∀ c ∈ cs, ∀ e ∈ c.entries, e.score ≤ 15)
    (b : Builder) (hrun : Builder.run cs = some b)
    (db : SMap Bytes Bytes) (hfin : finish o b = some db) (hsmall : SmallRecords db)
    (s : Store) (hs : s.db = db) (M : KMerger) (H : Heap QueueElement.key) (chk : Bool)
    (st en lang : ℕ) (hst : st < 2 ^ 32) (hsingle : ¬ (st ∈ s.bounds ∧ en ∈ s.bounds))
    (x y zoom : ℕ) (hx : x < 2 ^ 16) (hy : y < 2 ^ 16) (hzoom : zoom ≤ 16) (hrad : s.radius ≠ .nan)
    (k : GridKey) (hks : KeysFor (Content.run cs) (.range st en) [k])
    (n : ℕ) (hlim : 1 ≤ n) :
    ∃ out, s.getMatching M H chk ⟨.range st en, lang⟩ ⟨none, some (x, y), zoom⟩ n = some out ∧
      out.Perm ((readBack (((Content.run cs k).getD []).map stored)).map
        (report ⟨none, some (x, y), zoom⟩ s.radius (langMatches lang k.langSet))) ∧
      out.Pairwise (fun r r' => r.entry.relev = r'.entry.relev → r.entry.score = r'.entry.score →
        ((interleave r.entry.x r.entry.y : ℤ) - interleave x y).natAbs ≤
          ((interleave r'.entry.x r'.entry.y : ℤ) - interleave x y).natAbs) := by
  obtain ⟨out, h1, h2, h3⟩ := C21_query_in_z_order o cs hc hscore b hrun db hfin hsmall s hs M H chk
    st en lang hst hsingle none x y zoom hzoom hrad
    ⟨by simp, by rintro p ⟨⟩; exact ⟨hx, hy⟩⟩ (fun _ => nofun) k hks n hlim
  refine ⟨out, h1, ?_, h3⟩
  have : (fun e => decide (InBox ⟨none, some (x, y), zoom⟩ e)) = fun _ : GridEntry => true := by
    funext e; exact decide_eq_true trivial
  unfold answer at h2
  rw [this] at h2
  simpa using h2

example : KeysFor (Content.run exampleCalls) (.range 3 9) [⟨3, 1⟩] ∧
    ((Store.openWith exampleDb 6 0 (lit 40) [] 0).getMatching listMerger (listHeap _) true
      ⟨.range 3 9, 1⟩ ⟨none, some (1, 2), 6⟩ 5).map (List.map (fun r => (r.entry.x, r.entry.y))) =
    some [(65535, 0), (2, 2), (1, 1), (5, 6)] ∧
    ((Store.openWith exampleDb 6 0 (lit 40) [] 0).getMatching listMerger (listHeap _) true
      ⟨.range 3 9, 1⟩ ⟨some ⟨0, 0, 3, 3⟩, some (9, 9), 6⟩ 5).map
        (List.map (fun r => (r.entry.x, r.entry.y))) = some [(2, 2), (1, 1)] := by
  refine ⟨?_, by decide +kernel, by decide +kernel⟩
  have h := keysFor_exists exampleCalls_wf exampleBuilder_run (.range 3 9)
  have e : ((exampleBuilder.data.map Prod.fst).filter
    (fun k => decide (InPhrase (.range 3 9) k.phraseId))) = [⟨3, 1⟩] := by
    decide +kernel
  rw [e] at h
  exact h

end Carmen

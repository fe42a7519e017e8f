import Verif.Props.Wider
import Verif.Props.Zoom

/-!
# C27 for queries
-/

namespace Carmen
open Format Spec Builder

instance (k : ℕ) (p t : ℕ × ℕ) : Decidable (WithinTiles k p t) := by
  unfold WithinTiles
  infer_instance

/-- Everything a query finds lies in its box. -/
theorem found_inBox {s : Store} (hd : LaidOut s.db) (M : KMerger) (H : Heap QueueElement.key)
    {chk : Bool} {mk : MatchKey} (hst : mk.phrase.start < 2 ^ 32) {opts : MatchOpts} (ho : OptsWf opts)
    (hbf : BoxFit chk opts) (hn : NumbersOk opts s.radius) {n : ℕ} (hlim : s.db.length ≤ n)
    {out : List MatchEntry} (hout : s.getMatching M H chk mk opts n = some out) :
    ∀ r ∈ out, InBox opts r.entry := by
  intro r hr
  obtain ⟨out', -, hp⟩ := C100_query hd M H hst (opts := opts) (opts' := opts) ⟨rfl, rfl⟩
    (fun _ h => h) ho ho hbf hbf hn hlim hout
  exact of_decide_eq_true (List.mem_filter.1 (hp.mem_iff.1 hr)).2

theorem nearby_onlyBox (o : MatchOpts) : SameButBox o.withNearbyOnly o := by
  obtain ⟨h1, h2⟩ := nearby_point o
  exact ⟨h2, h1⟩

/-- **C27** for queries, as far as it holds: a query with the options restricted to nearby grids returns
what the query without that returns, less what is not within 25 miles of the point. Missing: points within
the padding of the edge, where such a query returns nothing (`C27_query_edge_partial`). -/
theorem C27_query_partial {s : Store} (hd : LaidOut s.db) (M : KMerger) (H : Heap QueueElement.key)
    {chk : Bool} {mk : MatchKey} (hst : mk.phrase.start < 2 ^ 32) {opts : MatchOpts} {p : ℕ × ℕ}
    (hp : opts.proximity = some p) (hz : opts.zoom ≤ 16) (hx : p.1 + nearbyTiles opts.zoom < 2 ^ 16)
    (hy : p.2 + nearbyTiles opts.zoom < 2 ^ 16) (ho : OptsWf opts) (hbf : BoxFit chk opts)
    (hbf' : BoxFit chk opts.withNearbyOnly) (hn : NumbersOk opts s.radius) {n : ℕ}
    (hlim : s.db.length ≤ n) {out : List MatchEntry}
    (hout : s.getMatching M H chk mk opts.withNearbyOnly n = some out) :
    ∃ out', s.getMatching M H chk mk opts n = some out' ∧
      out.Perm (out'.filter fun r =>
        decide (WithinTiles (nearbyTiles opts.zoom) p (r.entry.x, r.entry.y))) := by
  obtain ⟨b', hb', -, hin⟩ := C27_nearby_square_partial hz hp hx hy
  have hbox : ∀ e, InBox opts.withNearbyOnly e ↔
      WithinTiles (nearbyTiles opts.zoom) p (e.x, e.y) ∧ InBox opts e := by
    intro e
    rw [inBox_iff, inBox_iff, hb']
    simp only [Option.some.injEq, forall_eq']
    exact hin (e.x, e.y)
  have hn' : NumbersOk opts.withNearbyOnly s.radius := by
    unfold NumbersOk at hn ⊢
    rw [(nearby_onlyBox opts).point, (nearby_onlyBox opts).zoom]
    exact hn
  obtain ⟨out', h1, h2⟩ := C100_query hd M H hst (nearby_onlyBox opts)
    (fun e h => ((hbox e).1 h).2) (withNearbyOnly_wf ho) ho hbf' hbf hn' hlim hout
  refine ⟨out', h1, h2.trans (List.Perm.of_eq (List.filter_congr fun r hr => ?_))⟩
  have := found_inBox hd M H hst ho hbf hn hlim h1 r hr
  rw [Bool.eq_iff_iff, decide_eq_true_eq, decide_eq_true_eq, hbox]
  exact and_iff_left this

/-- **C27** for queries, within the padding of the edge: nothing is returned. -/
theorem C27_query_edge_partial {s : Store} (hd : LaidOut s.db) (M : KMerger)
    (H : Heap QueueElement.key) {mk : MatchKey} (hst : mk.phrase.start < 2 ^ 32)
    {opts : MatchOpts} {p : ℕ × ℕ} (hp : opts.proximity = some p) (hz : opts.zoom ≤ 16)
    (ho : OptsWf opts) (hedge : 2 ^ 16 ≤ p.1 + nearbyTiles opts.zoom ∨
      2 ^ 16 ≤ p.2 + nearbyTiles opts.zoom) (hn : NumbersOk opts s.radius) {n : ℕ}
    (hlim : s.db.length ≤ n) {out : List MatchEntry}
    (hout : s.getMatching M H false mk opts.withNearbyOnly n = some out) : out = [] := by
  obtain ⟨hp1, hp2⟩ := ho.2 p hp
  obtain ⟨⟨b', hb', hnone⟩, -⟩ := C27_edge_empty_partial hz hp hp1 hp2 hedge
  have hn' : NumbersOk opts.withNearbyOnly s.radius := by
    unfold NumbersOk at hn ⊢
    rw [(nearby_onlyBox opts).point, (nearby_onlyBox opts).zoom]
    exact hn
  refine List.eq_nil_iff_forall_not_mem.2 fun r hr => ?_
  have := found_inBox hd M H hst (withNearbyOnly_wf ho) (boxFit_false _) hn' hlim hout r hr
  rw [inBox_iff, hb'] at this
  exact hnone (r.entry.x, r.entry.y) (this b' rfl)

/-- Of the two streets one is nearby. -/
example : ∃ out out',
    streetStore.getMatching listMerger (listHeap _) false ⟨.exact 2, 1⟩
      (MatchOpts.withNearbyOnly ⟨none, some (5, 10), 8⟩) 100 = some out ∧
    streetStore.getMatching listMerger (listHeap _) false ⟨.exact 2, 1⟩ ⟨none, some (5, 10), 8⟩ 100 =
      some out' ∧ out.length = 1 ∧ out'.length = 2 ∧
    out.Perm (out'.filter fun r => decide (WithinTiles (nearbyTiles 8) (5, 10) (r.entry.x, r.entry.y))) := by
  have h1 : (streetStore.getMatching listMerger (listHeap _) false ⟨.exact 2, 1⟩
      (MatchOpts.withNearbyOnly ⟨none, some (5, 10), 8⟩) 100).map (fun out => decide (out.length = 1)) =
        some true := by decide +kernel
  have h2 : (streetStore.getMatching listMerger (listHeap _) false ⟨.exact 2, 1⟩
      ⟨none, some (5, 10), 8⟩ 100).map (fun out => decide (out.length = 2)) = some true := by
    decide +kernel
  obtain ⟨out, h1, h3⟩ := Option.map_eq_some_iff.1 h1
  have ht : nearbyTiles 8 = 1 := by
    rw [← nearbyPadding_exact (by decide)]
    decide +kernel
  have ho : OptsWf ⟨none, some (5, 10), 8⟩ := by
    refine ⟨by simp, ?_⟩
    rintro p ⟨⟩
    decide
  obtain ⟨out', h4, h5⟩ := C27_query_partial streetStore_laid listMerger (listHeap _)
    (mk := ⟨.exact 2, 1⟩) (by decide) (opts := ⟨none, some (5, 10), 8⟩) (p := (5, 10)) rfl (by decide)
    (by rw [ht]; decide) (by rw [ht]; decide) ho (boxFit_false _) (boxFit_false _)
    (fun _ => ⟨by decide, by decide +kernel⟩) (n := 100) (by decide +kernel) h1
  rw [h4] at h2
  exact ⟨out, out', h1, h4, of_decide_eq_true h3, of_decide_eq_true (Option.some.inj h2), h5⟩

/-- At the edge nothing is nearby. -/
example : streetStore.getMatching listMerger (listHeap _) false ⟨.exact 2, 1⟩
      (MatchOpts.withNearbyOnly ⟨none, some (65500, 10), 16⟩) 100 = some [] ∧
    2 ^ 16 ≤ 65500 + nearbyTiles 16 := by
  have ht : nearbyTiles 16 = 66 := by
    rw [← nearbyPadding_exact (by decide)]
    decide +kernel
  have ho : OptsWf ⟨none, some (65500, 10), 16⟩ := by
    refine ⟨by simp, ?_⟩
    rintro p ⟨⟩
    decide
  have h1 : (streetStore.getMatching listMerger (listHeap _) false ⟨.exact 2, 1⟩
      (MatchOpts.withNearbyOnly ⟨none, some (65500, 10), 16⟩) 100).isSome = true := by decide +kernel
  obtain ⟨out, h1⟩ := Option.isSome_iff_exists.1 h1
  have := C27_query_edge_partial streetStore_laid listMerger (listHeap _) (mk := ⟨.exact 2, 1⟩)
    (by decide) (opts := ⟨none, some (65500, 10), 16⟩) (p := (65500, 10)) rfl (by decide) ho
    (Or.inl (by rw [ht]; decide)) (fun _ => ⟨by decide, by decide +kernel⟩) (n := 100)
    (by decide +kernel) h1
  rw [this] at h1
  exact ⟨h1, by rw [ht]; decide⟩

end Carmen

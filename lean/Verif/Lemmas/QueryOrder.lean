import Verif.Lemmas.QueryExact

/-!
# The order of results
-/

namespace Carmen
open Format Spec Builder

/-- Relevance, score-distance and language match of a result. -/
def MatchEntry.rank (e : MatchEntry) : F64 ×ₗ F64 ×ₗ Bool :=
  toLex (e.entry.relev, toLex (e.scoredist, e.matchesLanguage))

theorem rank_le_of_sortKey_le {a b : MatchEntry} (h : a.sortKey ≤ b.sortKey) :
    a.rank ≤ b.rank := by
  unfold MatchEntry.sortKey at h
  unfold MatchEntry.rank
  rw [Prod.Lex.toLex_le_toLex] at h ⊢
  rcases h with h | ⟨h1, h2⟩
  · exact Or.inl h
  · refine Or.inr ⟨h1, ?_⟩
    simp only at h2 ⊢
    rw [Prod.Lex.toLex_le_toLex] at h2 ⊢
    rcases h2 with h | ⟨h3, h4⟩
    · exact Or.inl h
    · refine Or.inr ⟨h3, ?_⟩
      simp only at h4 ⊢
      rw [Prod.Lex.toLex_le_toLex] at h4
      rcases h4 with h | ⟨h5, _⟩
      · exact le_of_lt h
      · exact le_of_eq h5

theorem KMerge.mono {α : Type} {lt lt' : α → α → Prop} (h : ∀ a b, lt' a b → lt a b)
    {ss : List (List α)} {out : List α} (hk : KMerge lt ss out) : KMerge lt' ss out := by
  induction hk with
  | done h => exact KMerge.done h
  | step hp hb _ ih => exact KMerge.step hp (fun b t hbt hlt => hb b t hbt (h _ _ hlt)) ih

/-- Merging streams sorted by rank gives results sorted by rank. -/
theorem merged_ranked {ss : List (List MatchEntry)} {out : List MatchEntry}
    (hk : KMerge (fun a b : MatchEntry => b.sortKey < a.sortKey) ss out)
    (hs : ∀ s ∈ ss, s.Pairwise (fun a b => b.rank ≤ a.rank)) :
    out.Pairwise (fun a b => b.rank ≤ a.rank) := by
  have hk' : KMerge (fun a b : MatchEntry => b.rank < a.rank) ss out :=
    hk.mono (fun a b h => by
      by_contra hle
      exact absurd h (not_lt.2 (rank_le_of_sortKey_le (not_lt.1 hle))))
  have := hk'.sorted (fun a b c h1 h2 => by
    rw [not_lt] at h1 h2 ⊢; exact h1.trans h2)
    (fun s h => (hs s h).imp (fun h => not_lt.2 h))
  exact this.imp (fun h => not_lt.1 h)

/-! ## One row -/

theorem relevOfInt_mono {a b : ℕ} (h : a ≤ b) : relevOfInt a ≤ relevOfInt b := by
  by_cases hb : b < 4
  · rcases Nat.eq_or_lt_of_le h with rfl | h
    · exact le_rfl
    · exact (relevOfInt_strict h hb).le
  · have h1 : relevOfInt b = relevOfInt 3 := by
      unfold relevOfInt
      rw [if_neg (by omega), if_neg (by omega), if_neg (by omega)]; rfl
    rw [h1]
    by_cases ha : a < 3
    · exact (relevOfInt_strict ha (by decide)).le
    · have h2 : relevOfInt a = relevOfInt 3 := by
        unfold relevOfInt
        rw [if_neg (by omega), if_neg (by omega), if_neg (by omega)]; rfl
      rw [h2]

theorem relevOfInt_cases (n : ℕ) : relevOfInt n ∈ [lit 0.4, lit 0.6, lit 0.8, 1] := by
  unfold relevOfInt
  split
  · simp
  · split
    · simp
    · split <;> simp

/-- Reducing by 0.96 keeps stored relevances apart. -/
theorem reduced_strict : ∀ a ∈ [lit 0.4, lit 0.6, lit 0.8, 1], ∀ b ∈ [lit 0.4, lit 0.6, lit 0.8, 1],
    a < b → ∀ ml w : Bool, a * langFactor ml w < b * langFactor ml w := by decide +kernel

theorem pairwise_strict_of_chain {α K : Type} [LinearOrder K] {gs : List (K × α)}
    (h : gs.Pairwise (fun a b => b.1 ≤ a.1)) (hc : gs.IsChain (fun a b => a.1 ≠ b.1)) :
    gs.Pairwise (fun a b => b.1 < a.1) := by
  induction gs with
  | nil => exact List.Pairwise.nil
  | cons a t ih =>
    rw [List.pairwise_cons] at h
    have iht := ih h.2 hc.tail
    refine List.pairwise_cons.2 ⟨?_, iht⟩
    cases t with
    | nil => intro b hb; simp at hb
    | cons c t' =>
      have hca : c.1 < a.1 := lt_of_le_of_ne (h.1 c (List.mem_cons_self ..))
        (fun he => (List.isChain_cons_cons.1 hc).1 he.symm)
      intro b hb
      rcases List.mem_cons.1 hb with rfl | hb
      · exact hca
      · exact lt_trans ((List.pairwise_cons.1 iht).1 b hb) hca

section
variable {v : Bytes} {rec : List (RelevScore × List (Coord × List ℕ))}

theorem relevGroups_strict (hs : ShapeOk (shape rec)) :
    (relevGroups rec).Pairwise (fun a b => b.1 < a.1) := by
  have hg := groupBy_isGrouping (fun rs : RelevScore => relevOfInt (rs.relevScore >>> 4))
    (rec.map Prod.fst)
  refine pairwise_strict_of_chain ?_ hg.maximal
  have hl : ((rec.map Prod.fst).map
      (fun rs : RelevScore => relevOfInt (rs.relevScore >>> 4))).Pairwise (fun a b => b ≤ a) := by
    have := hs.groups
    unfold shape at this
    rw [List.pairwise_map] at this
    rw [List.map_map, List.pairwise_map]
    refine this.imp ?_
    intro a b hab
    refine relevOfInt_mono ?_
    rw [shr4, shr4]
    exact Nat.div_le_div_right (le_of_lt hab)
  rw [← hg.labels, List.pairwise_flatMap] at hl
  refine hl.2.imp_of_mem ?_
  intro a b ha hb hab
  obtain ⟨x, hx⟩ := List.exists_mem_of_ne_nil _ (hg.nonempty a ha)
  obtain ⟨y, hy⟩ := List.exists_mem_of_ne_nil _ (hg.nonempty b hb)
  exact hab _ (List.mem_map.2 ⟨x, hx, rfl⟩) _ (List.mem_map.2 ⟨y, hy, rfl⟩)

theorem relevGroups_value {g : F64 × List RelevScore} (hg : g ∈ relevGroups rec) :
    g.1 ∈ [lit 0.4, lit 0.6, lit 0.8, 1] := by
  have hne := (groupBy_isGrouping (fun rs : RelevScore => relevOfInt (rs.relevScore >>> 4))
    (rec.map Prod.fst)).nonempty g hg
  obtain ⟨x, hx⟩ := List.exists_mem_of_ne_nil _ hne
  rw [← (mem_relevGroups hg hx).2]
  exact relevOfInt_cases _

/-- Without a proximity point a row answers best first. -/
theorem decodeMatching_ranked (M : KMerger) {chk : Bool} {opts : MatchOpts} {radius : F64} (ml : Bool)
    (ho : OptsWf opts) (hpr : opts.proximity = none) (h : ReadsAs v rec)
    (hs : ShapeOk (shape rec)) {out : List MatchEntry}
    (hout : decodeMatching M chk opts ml radius v = some out) :
    out.Pairwise (fun a b => b.rank ≤ a.rank) := by
  replace hout := decodeMatching_relax hout
  rw [decodeMatching_eq M ml ho (boxFit_false _) (fun hne => absurd hpr hne) h hs] at hout
  cases hout
  have hscore : ∀ rs : RelevScore, ∀ c, (scoreCoord opts radius (rs.relevScore &&& 15) c).scoredist =
      F64.ofNat (rs.relevScore &&& 15) := by
    intro rs c; unfold scoreCoord; simp only [hpr]
  have hw : ∀ (x : ℕ) c, (scoreCoord opts radius x c).within = false := by
    intro x c; unfold scoreCoord; simp only [hpr]
  have hmem : ∀ g ∈ relevGroups rec, ∀ s ∈ mergedGroup M opts radius v g.2, s.within = false := by
    intro g _ s hsm
    have hperm := (M.law_key (fun s : ScoredCoord => s.scoredist)
      (g.2.map (stream opts radius v))).perm
    obtain ⟨t, ht, hst⟩ := List.mem_flatten.1 (hperm.mem_iff.1 hsm)
    obtain ⟨rs, hrs, rfl⟩ := List.mem_map.1 ht
    obtain ⟨cd, _, rfl⟩ := mem_stream hst
    exact hw _ _
  have hrel : ∀ g ∈ relevGroups rec, ∀ r ∈ (mergedGroup M opts radius v g.2).flatMap
      (tileMatches ml g.1 v), r.entry.relev = g.1 * langFactor ml false := by
    intro g hg r hr
    obtain ⟨s, hsm, hrs⟩ := List.mem_flatMap.1 hr
    obtain ⟨i, _, rfl⟩ := List.mem_map.1 hrs
    show g.1 * langFactor ml s.within = _
    rw [hmem g hg s hsm]
  rw [List.pairwise_flatMap]
  refine ⟨?_, ?_⟩
  · intro g hg
    have hsorted : (mergedGroup M opts radius v g.2).Pairwise
        (fun a b => b.scoredist ≤ a.scoredist) := by
      have hk := M.law_key (fun s : ScoredCoord => s.scoredist) (g.2.map (stream opts radius v))
      have := hk.sorted (fun a b c h1 h2 => by
        rw [not_lt] at h1 h2 ⊢; exact h1.trans h2) (by
        intro s hss
        obtain ⟨rs, _, rfl⟩ := List.mem_map.1 hss
        unfold stream
        rw [List.pairwise_map]
        refine List.pairwise_of_forall ?_
        intro a b
        rw [hscore, hscore, not_lt])
      exact this.imp (fun h => not_lt.1 h)
    rw [List.pairwise_flatMap]
    refine ⟨?_, ?_⟩
    · intro s hsm
      unfold tileMatches
      rw [List.pairwise_map]
      exact List.pairwise_of_forall (fun a b => le_rfl)
    · refine hsorted.imp_of_mem ?_
      intro a b ha hb hab x hx y hy
      obtain ⟨i, _, rfl⟩ := List.mem_map.1 hx
      obtain ⟨j, _, rfl⟩ := List.mem_map.1 hy
      unfold MatchEntry.rank mkMatch
      simp only
      rw [hmem g hg a ha, hmem g hg b hb, Prod.Lex.toLex_le_toLex]
      right
      refine ⟨rfl, ?_⟩
      simp only
      rw [Prod.Lex.toLex_le_toLex]
      rcases lt_or_eq_of_le hab with h | h
      · exact Or.inl h
      · exact Or.inr ⟨h, le_rfl⟩
  · refine (relevGroups_strict hs).imp_of_mem ?_
    intro a b ha hb hab x hx y hy
    have hx' := hrel a ha x hx
    have hy' := hrel b hb y hy
    unfold MatchEntry.rank
    rw [Prod.Lex.toLex_le_toLex]
    left
    simp only
    rw [hx', hy']
    exact reduced_strict _ (relevGroups_value hb) _ (relevGroups_value ha) hab ml false


end

section
variable {o : IterOrder} {b : Builder} {db : SMap Bytes Bytes} {s : Store} {opts : MatchOpts}

theorem rowOut_ranked (hd : LaidOut db)
    (ho : OptsWf opts) (hpr : opts.proximity = none) (M : KMerger) (mk : MatchKey)
    {m : TypeMarker} {st en : ℕ} {r : Bytes × Bytes} (hr : r ∈ db.filter (inRange m st en)) :
    (rowOut M s mk opts r).Pairwise (fun a b => b.rank ≤ a.rank) := by
  have hn : NumbersOk opts s.radius := fun hne => absurd hpr hne
  obtain ⟨rec, k, v, es, hk, hra, hs, rfl, _, _, _, hdm, _, _⟩ :=
    row_answers (chk := false) hd ho (boxFit_false _) hn M mk hr
  exact decodeMatching_ranked M _ ho hpr hra hs hdm

end

/-! ## The best n of two sorted lists -/

/-- If `kept` has at least `n` elements that are not below anything in `dropped`, then adding
`dropped` does not change the first `n` of the sorted list. -/
theorem take_sorted_eq {K : Type} [LinearOrder K] {n : ℕ} {kept dropped all heads : List K}
    (hk : kept.Pairwise (fun a b => b ≤ a)) (ha : all.Pairwise (fun a b => b ≤ a))
    (hp : all.Perm (kept ++ dropped)) (hh : heads.Subperm kept) (hlen : n ≤ heads.length)
    (hbest : ∀ h ∈ heads, ∀ d ∈ dropped, d ≤ h) : all.take n = kept.take n := by
  have htop : ∀ a ∈ kept.take n, ∀ d ∈ dropped, d ≤ a := by
    intro a ha' d hd
    by_contra hlt
    rw [not_le] at hlt
    obtain ⟨i, hi, rfl⟩ := List.mem_iff_getElem.1 ha'
    rw [List.length_take] at hi
    -- elements at or after position i are below d
    have hcount : (kept.filter (fun x => decide (d ≤ x))).length ≤ i := by
      have hsplit : kept = kept.take i ++ kept.drop i := (List.take_append_drop i kept).symm
      rw [hsplit, List.filter_append, List.length_append]
      have h2 : (kept.drop i).filter (fun x => decide (d ≤ x)) = [] := by
        rw [List.filter_eq_nil_iff]
        intro x hx
        rw [decide_eq_true_iff, not_le]
        refine lt_of_le_of_lt ?_ hlt
        rw [List.drop_eq_getElem_cons (by omega)] at hx
        rw [List.getElem_take]
        rcases List.mem_cons.1 hx with rfl | hx
        · exact le_rfl
        · have hpd := hk.sublist (List.drop_sublist i kept)
          rw [List.drop_eq_getElem_cons (by omega), List.pairwise_cons] at hpd
          exact hpd.1 x hx
      rw [h2, List.length_nil, Nat.add_zero]
      exact (List.length_filter_le _ _).trans (by rw [List.length_take]; omega)
    have hge : n ≤ (kept.filter (fun x => decide (d ≤ x))).length := by
      refine hlen.trans ?_
      have h1 : heads.filter (fun x => decide (d ≤ x)) = heads := by
        rw [List.filter_eq_self]
        intro x hx
        exact decide_eq_true (hbest x hx d hd)
      rw [← h1]
      exact (hh.filter _).length_le
    omega
  have hperm : all.Perm (kept.take n ++ ((kept.drop n ++ dropped).insertionSort (fun a b => b ≤ a))) := by
    refine hp.trans ?_
    refine List.Perm.trans ?_ ((List.perm_insertionSort _ _).symm.append_left _)
    rw [← List.append_assoc, List.take_append_drop]
  have hsorted : (kept.take n ++ ((kept.drop n ++ dropped).insertionSort
      (fun a b => b ≤ a))).Pairwise (fun a b => b ≤ a) := by
    rw [List.pairwise_append]
    have : Std.Total (fun a b : K => b ≤ a) := ⟨fun a b => le_total _ _⟩
    have : IsTrans K (fun a b : K => b ≤ a) := ⟨fun a b c h1 h2 => le_trans h2 h1⟩
    refine ⟨hk.sublist (List.take_sublist _ _), List.pairwise_insertionSort _ _, ?_⟩
    intro a ha' x hx
    rw [(List.perm_insertionSort _ _).mem_iff, List.mem_append] at hx
    rcases hx with hx | hx
    · have := hk
      rw [← List.take_append_drop n kept, List.pairwise_append] at this
      exact this.2.2 a ha' x hx
    · exact htop a ha' x hx
  have : Std.Antisymm (fun a b : K => b ≤ a) := ⟨fun a b h1 h2 => le_antisymm h2 h1⟩
  have heq := List.Perm.eq_of_pairwise' ha hsorted hperm
  have hkl : n ≤ kept.length := hlen.trans hh.length_le
  rw [heq, List.take_append_of_le_length (by rw [List.length_take]; omega), List.take_take, min_self]

end Carmen

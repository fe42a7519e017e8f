import Verif.Lemmas.QueryOrder

/-!
# The order of tiles in one record with a proximity point
-/

namespace Carmen
open Format Spec Builder

/-- A relation that holds along every stream and between different streams holds along the
merged stream. -/
theorem KMerge.pairwise {α : Type} {lt : α → α → Prop} {R : α → α → Prop}
    {ss : List (List α)} {out : List α} (h : KMerge lt ss out) :
    (∀ s ∈ ss, s.Pairwise R) → ss.Pairwise (fun s t => ∀ a ∈ s, ∀ b ∈ t, R a b ∧ R b a) →
      out.Pairwise R := by
  induction h with
  | done _ => intro _ _; exact List.Pairwise.nil
  | @step ss ss' a s out hp hb hk ih =>
    intro h1 h2
    have hsymm : ∀ {s t : List α}, (∀ a ∈ s, ∀ b ∈ t, R a b ∧ R b a) →
        ∀ a ∈ t, ∀ b ∈ s, R a b ∧ R b a := fun h a ha b hb => ⟨(h b hb a ha).2, (h b hb a ha).1⟩
    have h2' := (hp.pairwise_iff hsymm).1 h2
    rw [List.pairwise_cons] at h2'
    have has : (a :: s).Pairwise R := h1 _ (hp.mem_iff.2 (List.mem_cons_self ..))
    rw [List.pairwise_cons] at has
    refine List.pairwise_cons.2 ⟨?_, ih ?_ ?_⟩
    · intro b hbm
      have hbm' := hk.perm.mem_iff.1 hbm
      rw [List.flatten_cons, List.mem_append] at hbm'
      rcases hbm' with hbs | hbs
      · exact has.1 b hbs
      · obtain ⟨t, ht, hbt⟩ := List.mem_flatten.1 hbs
        exact (h2'.1 t ht a (List.mem_cons_self ..) b hbt).1
    · intro t ht
      rcases List.mem_cons.1 ht with rfl | ht
      · exact has.2
      · exact h1 t (hp.mem_iff.2 (List.mem_cons_of_mem _ ht))
    · refine List.pairwise_cons.2 ⟨?_, h2'.2⟩
      intro t ht x hx y hy
      exact h2'.1 t ht x (List.mem_cons_of_mem _ hx) y hy

/-- Reported relevances of different stored relevances differ. -/
theorem reported_ne : ∀ a ∈ [lit 0.4, lit 0.6, lit 0.8, 1], ∀ b ∈ [lit 0.4, lit 0.6, lit 0.8, 1],
    a ≠ b → ∀ ml w w' : Bool, a * langFactor ml w ≠ b * langFactor ml w' := by decide +kernel

/-- Distance of a result along the z-order curve. -/
def MatchEntry.zDist (p : ℕ × ℕ) (r : MatchEntry) : ℕ :=
  Carmen.zDist (interleave p.1 p.2) (interleave r.entry.x r.entry.y)

section
variable {v : Bytes} {rec : List (RelevScore × List (Coord × List ℕ))}

theorem selectCoords_zorder {opts : MatchOpts} (ho : OptsWf opts) {p : ℕ × ℕ}
    (hp : opts.proximity = some p) {cs : List Coord} (h : Descending cs)
    (hc : ∀ c ∈ cs, c.coord < 2 ^ 32) :
    (selectCoords opts cs).Pairwise (fun a b =>
      zDist (interleave p.1 p.2) a.coord ≤ zDist (interleave p.1 p.2) b.coord) := by
  rcases opts with ⟨_ | bb, prox, zoom⟩
  · simp only at hp; subst hp
    exact (proximity_spec h).2
  · simp only at hp; subst hp
    have := ho.1 bb rfl
    exact (bboxProximity_spec h hc this.1 this.2).2

theorem mem_selectCoords_lt {opts : MatchOpts} (ho : OptsWf opts) (h : ReadsAs v rec)
    (hs : ShapeOk (shape rec)) {x : RelevScore × List (Coord × List ℕ)} (hx : x ∈ rec) {c : Coord}
    (hc : c ∈ selectCoords opts (coordsOf v x.1)) : x.2 ≠ [] ∧ c.coord < 2 ^ 32 := by
  rw [h.coordsOf_eq hx] at hc
  have := (selectCoords_perm ho (hs.descending hx) (hs.coord_lt hx)).mem_iff.1 hc
  have hm := (List.mem_filter.1 this).1
  refine ⟨?_, hs.coord_lt hx c hm⟩
  rintro h0
  rw [h0] at hm
  simp at hm

/-- Within one relevance and score, a record answers in order of z-order distance. -/
theorem decodeMatching_zorder (M : KMerger) {chk : Bool} {opts : MatchOpts} {radius : F64} (ml : Bool)
    (ho : OptsWf opts) {p : ℕ × ℕ} (hp : opts.proximity = some p) (hn : NumbersOk opts radius)
    (h : ReadsAs v rec) (hs : ShapeOk (shape rec))
    (h64 : ∀ x ∈ rec, x.2 = [] ∨ x.1.relevScore < 64) {out : List MatchEntry}
    (hout : decodeMatching M chk opts ml radius v = some out) :
    out.Pairwise (fun r r' => r.entry.relev = r'.entry.relev → r.entry.score = r'.entry.score →
      r.zDist p ≤ r'.zDist p) := by
  replace hout := decodeMatching_relax hout
  rw [decodeMatching_eq M ml ho (boxFit_false _) hn h hs] at hout
  cases hout
  have hscore : ∀ (x : ℕ) c, (scoreCoord opts radius x c).score = x := by
    intro x c; unfold scoreCoord; simp only [hp]
  rw [List.pairwise_flatMap]
  refine ⟨?_, ?_⟩
  · intro g hg
    have hk := M.law_key (fun s : ScoredCoord => s.scoredist) (g.2.map (stream opts radius v))
    have hpw : (mergedGroup M opts radius v g.2).Pairwise (fun a b => a.score = b.score →
        zDist (interleave p.1 p.2) a.coord.coord ≤ zDist (interleave p.1 p.2) b.coord.coord) := by
      refine hk.pairwise ?_ ?_
      · intro s hsm
        obtain ⟨rs, hrs, rfl⟩ := List.mem_map.1 hsm
        obtain ⟨⟨x, hx, rfl⟩, _⟩ := mem_relevGroups hg hrs
        unfold stream
        rw [List.pairwise_map]
        have := selectCoords_zorder ho hp (hs.descending hx) (hs.coord_lt hx)
        rw [h.coordsOf_eq hx]
        refine this.imp ?_
        intro a b hab _
        rw [scoreCoord_coord, scoreCoord_coord]
        exact hab
      · rw [List.pairwise_map]
        refine (relevGroups_scores hs hg).imp_of_mem ?_
        intro a b ha hb hab s hsm t htm
        obtain ⟨c, hc, rfl⟩ := mem_stream hsm
        obtain ⟨d, hd, rfl⟩ := mem_stream htm
        have hlow : ∀ rs ∈ g.2, ∀ c ∈ selectCoords opts (coordsOf v rs), rs.relevScore < 64 := by
          intro rs hrs c hc
          obtain ⟨⟨x, hx, rfl⟩, _⟩ := mem_relevGroups hg hrs
          rcases h64 x hx with h0 | h0
          · exact absurd h0 (mem_selectCoords_lt ho h hs hx hc).1
          · exact h0
        have hab := hab (hlow a ha c hc) (hlow b hb d hd)
        rw [hscore, hscore]
        exact ⟨fun he => absurd he (by omega), fun he => absurd he (by omega)⟩
    have hlt : ∀ s ∈ mergedGroup M opts radius v g.2, s.coord.coord < 2 ^ 32 := by
      intro s hsm
      obtain ⟨t, ht, hst⟩ := List.mem_flatten.1 (hk.perm.mem_iff.1 hsm)
      obtain ⟨rs, hrs, rfl⟩ := List.mem_map.1 ht
      obtain ⟨c, hc, rfl⟩ := mem_stream hst
      obtain ⟨⟨x, hx, rfl⟩, _⟩ := mem_relevGroups hg hrs
      rw [scoreCoord_coord]
      exact (mem_selectCoords_lt ho h hs hx hc).2
    have hz : ∀ s ∈ mergedGroup M opts radius v g.2, ∀ i,
        (mkMatch ml g.1 s i).zDist p = zDist (interleave p.1 p.2) s.coord.coord := by
      intro s hsm i
      unfold MatchEntry.zDist mkMatch
      simp only
      rw [interleave_deinterleave (hlt s hsm)]
    rw [List.pairwise_flatMap]
    refine ⟨?_, ?_⟩
    · intro s hsm
      unfold tileMatches
      rw [List.pairwise_map]
      refine List.pairwise_of_forall (fun a b _ _ => ?_)
      rw [hz s hsm, hz s hsm]
    · refine hpw.imp_of_mem ?_
      intro a b ha hb hab x hx y hy _ hsc
      obtain ⟨i, _, rfl⟩ := List.mem_map.1 hx
      obtain ⟨j, _, rfl⟩ := List.mem_map.1 hy
      rw [hz a ha, hz b hb]
      exact hab hsc
  · refine (relevGroups_strict hs).imp_of_mem ?_
    intro a b ha hb hab x hx y hy he
    obtain ⟨s, _, hx⟩ := List.mem_flatMap.1 hx
    obtain ⟨i, _, rfl⟩ := List.mem_map.1 hx
    obtain ⟨t, _, hy⟩ := List.mem_flatMap.1 hy
    obtain ⟨j, _, rfl⟩ := List.mem_map.1 hy
    exact absurd he (reported_ne _ (relevGroups_value ha) _ (relevGroups_value hb) hab.ne' ml _ _)

end

end Carmen

import Verif.Lemmas.QueryOrder
import Verif.Spec.NotWorse

/-!
# The order of results with a proximity point
-/

namespace Carmen
open Format Spec Builder

/-- The least stored relevance that is not below. -/
def classOf (r : F64) : F64 :=
  if r ≤ lit 0.4 then lit 0.4 else if r ≤ lit 0.6 then lit 0.6 else if r ≤ lit 0.8 then lit 0.8 else 1

theorem classOf_mono {a b : F64} (h : a ≤ b) : classOf a ≤ classOf b := by
  have h1 : lit 0.4 ≤ lit 0.6 := by decide +kernel
  have h2 : lit 0.6 ≤ lit 0.8 := by decide +kernel
  have h3 : lit 0.8 ≤ (1 : F64) := by decide +kernel
  unfold classOf
  split_ifs with a1 b1 b2 b3 a2 b1 b2 b3 a3 b1 b2 b3 b1 b2 b3 <;>
    first
    | exact le_rfl
    | exact h1
    | exact h2
    | exact h3
    | exact h1.trans h2
    | exact h2.trans h3
    | exact h1.trans (h2.trans h3)
    | exact absurd (h.trans ‹_›) ‹_›

theorem classOf_factor : ∀ c ∈ [lit 0.4, lit 0.6, lit 0.8, 1], ∀ ml w : Bool,
    classOf (c * langFactor ml w) = c := by decide +kernel

theorem class_pair : ∀ c ∈ [lit 0.4, lit 0.6, lit 0.8, 1], ∀ c' ∈ [lit 0.4, lit 0.6, lit 0.8, 1],
    c' ≤ c → ∀ ml w ml' w' : Bool, c' * langFactor ml' w' ≤ c * langFactor ml w ∨
      (c = c' ∧ ml = false ∧ w = false ∧ (ml' = true ∨ w' = true) ∧
        c * langFactor ml w = c' * langFactor ml' w' * lit 0.96) := by decide +kernel

theorem class_full : ∀ c ∈ [lit 0.4, lit 0.6, lit 0.8, 1], ∀ w : Bool,
    ¬ c * langFactor true w ≤ c * langFactor false false := by decide +kernel

section
variable (opts : MatchOpts) (radius : F64)

/-- A result is of this stored relevance. -/
def ClassIs (x : MatchEntry) (c : F64) : Prop :=
  c ∈ [lit 0.4, lit 0.6, lit 0.8, 1] ∧
    x.entry.relev = c * langFactor x.matchesLanguage (decide (WithinRadius opts radius x.entry))

/-- What is known of the results of a row: stored relevances fall, the language is the same. -/
structure RowLike (s : List MatchEntry) : Prop where
  falls : s.Pairwise (fun a b => classOf b.entry.relev ≤ classOf a.entry.relev)
  lang : ∀ x ∈ s, ∀ y ∈ s, x.matchesLanguage = y.matchesLanguage
  stored : ∀ x ∈ s, ∃ c, ClassIs opts radius x c

theorem RowLike.tail {opts radius} {a : MatchEntry} {s : List MatchEntry} (h : RowLike opts radius (a :: s)) :
    RowLike opts radius s :=
  ⟨(List.pairwise_cons.1 h.falls).2,
    fun x hx y hy => h.lang x (List.mem_cons_of_mem _ hx) y (List.mem_cons_of_mem _ hy),
    fun x hx => h.stored x (List.mem_cons_of_mem _ hx)⟩

theorem ClassIs.eq {opts radius} {x : MatchEntry} {c : F64} (h : ClassIs opts radius x c) :
    classOf x.entry.relev = c := by
  rw [h.2]; exact classOf_factor c h.1 _ _

/-- What a row has still to give is not better than a result that is not worse than its next one. -/
theorem notWorse_of_head {opts radius} {a h b : MatchEntry} (ha : ∃ c, ClassIs opts radius a c)
    (hh : ∃ c, ClassIs opts radius h c) (hb : ∃ c, ClassIs opts radius b c)
    (hle : h.entry.relev ≤ a.entry.relev) (hcl : classOf b.entry.relev ≤ classOf h.entry.relev)
    (hml : h.matchesLanguage = b.matchesLanguage) : NotWorse opts radius a b := by
  obtain ⟨ca, ha⟩ := ha
  obtain ⟨ch, hh⟩ := hh
  obtain ⟨cb, hb⟩ := hb
  have h1 := classOf_mono hle
  rw [hh.eq, ha.eq] at h1
  rw [hb.eq, hh.eq] at hcl
  rcases class_pair ca ha.1 cb hb.1 (hcl.trans h1) a.matchesLanguage
    (decide (WithinRadius opts radius a.entry)) b.matchesLanguage
    (decide (WithinRadius opts radius b.entry)) with h2 | ⟨rfl, h3, h4, h5, h6⟩
  · left
    rw [ha.2, hb.2]; exact h2
  · right
    have h7 : ch = ca := le_antisymm h1 hcl
    subst h7
    have h8 : b.matchesLanguage = false := by
      by_contra hne
      rw [Bool.not_eq_false] at hne
      have := hle
      rw [hh.2, ha.2, hml, hne, h3, h4] at this
      exact class_full ch ha.1 _ this
    rw [h8] at h5
    refine ⟨h3, h8, of_decide_eq_false h4, of_decide_eq_true (by simpa using h5), ?_⟩
    rw [ha.2, hb.2]; exact h6

theorem relev_le_of_sortKey_le {a b : MatchEntry} (h : a.sortKey ≤ b.sortKey) :
    a.entry.relev ≤ b.entry.relev := by
  unfold MatchEntry.sortKey at h
  rw [Prod.Lex.toLex_le_toLex] at h
  rcases h with h | ⟨h, _⟩
  · exact le_of_lt h
  · exact le_of_eq h

/-- Merging rows. -/
theorem merged_notWorse {ss : List (List MatchEntry)} {out : List MatchEntry}
    (hk : KMerge (fun a b : MatchEntry => b.sortKey < a.sortKey) ss out)
    (hs : ∀ s ∈ ss, RowLike opts radius s) : out.Pairwise (NotWorse opts radius) := by
  induction hk with
  | done _ => exact List.Pairwise.nil
  | @step ss ss' a s out h1 h2 hrec ih =>
    have hs' : ∀ t ∈ (a :: s) :: ss', RowLike opts radius t := fun t ht => hs t (h1.mem_iff.2 ht)
    have has := hs' _ (List.mem_cons_self ..)
    rw [List.pairwise_cons]
    refine ⟨?_, ih ?_⟩
    · intro b hb
      have hb' := hrec.perm.mem_iff.1 hb
      rw [List.mem_flatten] at hb'
      obtain ⟨t, ht, hbt⟩ := hb'
      rcases List.mem_cons.1 ht with rfl | ht
      · exact notWorse_of_head (has.stored a (List.mem_cons_self ..))
          (has.stored a (List.mem_cons_self ..)) (has.stored b (List.mem_cons_of_mem _ hbt)) le_rfl
          ((List.pairwise_cons.1 has.falls).1 b hbt)
          (has.lang _ (List.mem_cons_self ..) _ (List.mem_cons_of_mem _ hbt))
      · cases t with
        | nil => cases hbt
        | cons c t' =>
          have hca : ¬ (a.sortKey < c.sortKey) := h2 c t' (h1.mem_iff.2 (List.mem_cons_of_mem _ ht))
          have htr := hs' _ (List.mem_cons_of_mem _ ht)
          refine notWorse_of_head (has.stored a (List.mem_cons_self ..))
            (htr.stored c (List.mem_cons_self ..)) (htr.stored b hbt)
            (relev_le_of_sortKey_le (not_lt.1 hca)) ?_ (htr.lang _ (List.mem_cons_self ..) _ hbt)
          rcases List.mem_cons.1 hbt with rfl | hbt
          · exact le_rfl
          · exact (List.pairwise_cons.1 htr.falls).1 b hbt
    · intro t ht
      rcases List.mem_cons.1 ht with rfl | ht
      · exact has.tail
      · exact hs' t (List.mem_cons_of_mem _ ht)

end

/-! ## One row -/

section
variable {v : Bytes} {rec : List (RelevScore × List (Coord × List ℕ))}

theorem scoreCoord_within {opts : MatchOpts} {radius : F64} {score : ℕ} {c : Coord} {ml : Bool}
    {relev : F64} {i : ℕ} : (scoreCoord opts radius score c).within =
      decide (WithinRadius opts radius (mkMatch ml relev (scoreCoord opts radius score c) i).entry) := by
  obtain ⟨box, prox, zoom⟩ := opts
  cases prox with
  | none => rfl
  | some p => rw [Bool.eq_iff_iff, decide_eq_true_iff]; rfl

theorem decodeMatching_rowLike (M : KMerger) {chk : Bool} {opts : MatchOpts} {radius : F64} (ml : Bool)
    (ho : OptsWf opts) (hn : NumbersOk opts radius) (h : ReadsAs v rec)
    (hs : ShapeOk (shape rec)) {out : List MatchEntry}
    (hout : decodeMatching M chk opts ml radius v = some out) : RowLike opts radius out := by
  replace hout := decodeMatching_relax hout
  rw [decodeMatching_eq M ml ho (boxFit_false _) hn h hs] at hout
  cases hout
  have hml : ∀ g ∈ relevGroups rec, ∀ r ∈ (mergedGroup M opts radius v g.2).flatMap
      (tileMatches ml g.1 v), r.matchesLanguage = ml ∧ ClassIs opts radius r g.1 := by
    intro g hg r hr
    obtain ⟨s, hsm, hrs⟩ := List.mem_flatMap.1 hr
    obtain ⟨i, _, rfl⟩ := List.mem_map.1 hrs
    refine ⟨rfl, relevGroups_value hg, ?_⟩
    have hsc : ∃ score c, s = scoreCoord opts radius score c := by
      unfold mergedGroup at hsm
      have hk := M.law (fun a b : ScoredCoord => decide (b.scoredist < a.scoredist))
        (g.2.map (stream opts radius v)) (by simp)
        (fun a b c h1 h2 => by simp only [decide_eq_true_eq] at *; exact h2.trans h1)
        (fun a b c h1 h2 => by
          simp only [decide_eq_false_iff_not, not_lt] at *; exact h1.trans h2)
      obtain ⟨t, ht, hst⟩ := List.mem_flatten.1 (hk.perm.mem_iff.1 hsm)
      obtain ⟨rs, _, rfl⟩ := List.mem_map.1 ht
      obtain ⟨c, _, rfl⟩ := List.mem_map.1 hst
      exact ⟨_, _, rfl⟩
    obtain ⟨score, c, rfl⟩ := hsc
    show g.1 * langFactor ml _ = g.1 * langFactor ml _
    rw [scoreCoord_within]
  have hall : ∀ r ∈ (relevGroups rec).flatMap (fun g => (mergedGroup M opts radius v g.2).flatMap
      (tileMatches ml g.1 v)), r.matchesLanguage = ml ∧ ∃ c, ClassIs opts radius r c := by
    intro r hr
    obtain ⟨g, hg, hrg⟩ := List.mem_flatMap.1 hr
    exact ⟨(hml g hg r hrg).1, g.1, (hml g hg r hrg).2⟩
  refine ⟨?_, fun x hx y hy => (hall x hx).1.trans (hall y hy).1.symm, fun x hx => (hall x hx).2⟩
  rw [List.pairwise_flatMap]
  refine ⟨?_, ?_⟩
  · intro g hg
    refine (List.pairwise_of_forall_mem_list ?_)
    intro a ha b hb
    rw [(hml g hg a ha).2.eq, (hml g hg b hb).2.eq]
  · refine (relevGroups_strict hs).imp_of_mem ?_
    intro a b ha hb hab x hx y hy
    rw [(hml a ha x hx).2.eq, (hml b hb y hy).2.eq]
    exact hab.le

end

theorem rowOut_rowLike {db : SMap Bytes Bytes} {s : Store} {opts : MatchOpts} (hd : LaidOut db)
    (ho : OptsWf opts) (hn : NumbersOk opts s.radius) (M : KMerger) (mk : MatchKey)
    {m : TypeMarker} {st en : ℕ} {r : Bytes × Bytes} (hr : r ∈ db.filter (inRange m st en)) :
    RowLike opts s.radius (rowOut M s mk opts r) := by
  obtain ⟨rec, k, v, es, hk, hra, hs, rfl, _, _, _, hdm, _, _⟩ :=
    row_answers (chk := false) hd ho (boxFit_false _) hn M mk hr
  exact decodeMatching_rowLike M _ ho hn hra hs hdm

theorem falls_of_sameSide {opts : MatchOpts} {radius : F64} {out : List MatchEntry}
    (h : out.Pairwise (NotWorse opts radius)) (hs : SameSide opts radius out) :
    out.Pairwise fun a b => b.entry.relev ≤ a.entry.relev :=
  h.imp_of_mem fun {a b} ha hb hab => by
    rcases hab with h1 | ⟨h1, h2, h3, h4, -⟩
    · exact h1
    · exact absurd (hs b hb a ha h2 h1 h4) h3

theorem sameSide_of_lang {opts : MatchOpts} {radius : F64} {out : List MatchEntry}
    (h : opts.proximity ≠ none → ∀ g ∈ out, g.matchesLanguage = true) : SameSide opts radius out := by
  intro r hr r' _ h1 _ hw
  by_cases hp : opts.proximity = none
  · unfold WithinRadius at hw
    rw [hp] at hw
    exact hw.elim
  · rw [h hp r hr] at h1
    cases h1

/-! ## The first results of a merge -/

/-- While `m` streams begin with something not below `d`, so do the first `m` results. -/
theorem KMerge.first {α K : Type} [LinearOrder K] {key : α → K} {ss : List (List α)} {out : List α}
    (hk : KMerge (fun a b : α => key b < key a) ss out) (d : K) (m : ℕ)
    (hm : m ≤ ss.countP fun s => s.head?.any fun h => decide (d ≤ key h)) :
    ∀ r ∈ out.take m, d ≤ key r := by
  induction hk generalizing m with
  | done _ => intro r hr; simp at hr
  | @step ss ss' a s out h1 h2 hrec ih =>
    cases m with
    | zero => intro r hr; simp at hr
    | succ m =>
      rw [h1.countP_eq, List.countP_cons] at hm
      intro r hr
      rw [List.take_succ_cons] at hr
      rcases List.mem_cons.1 hr with rfl | hr
      · by_contra hlt
        have h3 : ¬ d ≤ key r := hlt
        have h4 : 0 < ss'.countP fun s => s.head?.any fun h => decide (d ≤ key h) := by
          simp only [List.head?_cons, Option.any_some, h3, decide_false, Bool.false_eq_true,
            if_false] at hm
          omega
        obtain ⟨t, ht, htd⟩ := List.countP_pos_iff.1 h4
        cases t with
        | nil => simp at htd
        | cons b t =>
          simp only [List.head?_cons, Option.any_some, decide_eq_true_eq] at htd
          have := h2 b t (h1.mem_iff.2 (List.mem_cons_of_mem _ ht))
          exact h3 (htd.trans (not_lt.1 this))
      · refine ih m ?_ r hr
        rw [List.countP_cons]
        have : (if ((a :: s).head?.any fun h => decide (d ≤ key h)) = true then 1 else 0) ≤ 1 := by
          split <;> omega
        omega

end Carmen

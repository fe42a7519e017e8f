import Verif.Lemmas.SingleFull
import Verif.Lemmas.QueryIds
import Verif.Lemmas.SingleAgree
import Verif.Lemmas.WrittenBytes
import Verif.Spec.Single
import Verif.Props.Nested
import Verif.Props.Agree

/-!
# C62: what coalescing a single phrase match finds, whatever the number of features
-/

namespace Carmen
open Format Spec Builder

theorem IsResult.scoredist_ne_nan {opts : MatchOpts} {radius : F64} {r : MatchEntry}
    (h : IsResult opts radius r) (ho : OptsWf opts) (hn : NumbersOk opts radius) :
    r.scoredist ≠ .nan := by
  obtain ⟨ml, n, score, c, i, hs, rfl⟩ := h
  exact scoreCoord_ne_nan ho hn (by omega) c

/-- The relevances a result can have are at least 1/64 apart. -/
theorem relevances_apart : ∀ a ∈ [lit 0.4, lit 0.6, lit 0.8, 1, lit 0.4 * lit 0.96,
    lit 0.6 * lit 0.96, lit 0.8 * lit 0.96, 1 * lit 0.96], ∀ b ∈ [lit 0.4, lit 0.6, lit 0.8, 1,
    lit 0.4 * lit 0.96, lit 0.6 * lit 0.96, lit 0.8 * lit 0.96, 1 * lit 0.96], a < b →
      .fin (1 / 64) ≤ b - a ∧ (b - a).IsFin := by decide +kernel

/-- Weights from `2 ^ -40` to 1 keep different relevances of results apart. -/
theorem weighted_apart {opts opts' : MatchOpts} {radius radius' : F64} {r r' : MatchEntry}
    (h : IsResult opts radius r) (h' : IsResult opts' radius' r') {w : F64}
    (hlo : .fin (1 / 2 ^ 40) ≤ w) (hhi : w ≤ 1) (hlt : r.entry.relev < r'.entry.relev) :
    r.entry.relev * w < r'.entry.relev * w := by
  obtain ⟨h1, -, h2, h3⟩ := h.relev_bounds
  obtain ⟨h1', -, h2', h3'⟩ := h'.relev_bounds
  obtain ⟨hgap, -⟩ := relevances_apart _ h.relev _ h'.relev hlt
  have hw0 : (0 : F64) ≤ w := le_trans (by decide +kernel) hlo
  obtain ⟨w, rfl⟩ := (isFin_of_between (b := 1) trivial hw0 hhi).exists
  obtain ⟨a, ha⟩ := h1.exists
  obtain ⟨b, hb⟩ := h1'.exists
  rw [ha] at h2 h3 hgap ⊢
  rw [hb] at h2' h3' hgap ⊢
  rw [F64.one_def, F64.fin_le_fin] at hhi h3 h3'
  rw [F64.zero_def, F64.fin_lt_fin] at h2 h2'
  rw [F64.fin_le_fin] at hlo
  have hw0 : 0 < w := lt_of_lt_of_le (by norm_num) hlo
  obtain ⟨d, hd, hde⟩ := F64.sub_err (a := b) (b := a) (by rw [abs_lt]; constructor <;> linarith)
  rw [hd, F64.fin_le_fin] at hgap
  have haw : |a * w| < 64 := by
    rw [abs_of_pos (mul_pos h2 hw0)]
    nlinarith
  have hbw : |b * w| < 64 := by
    rw [abs_of_pos (mul_pos h2' hw0)]
    nlinarith
  obtain ⟨x, hx, hxe⟩ := F64.ofRat_err haw
  obtain ⟨y, hy, hye⟩ := F64.ofRat_err hbw
  have hx' : F64.fin a * F64.fin w = F64.fin x := hx
  have hy' : F64.fin b * F64.fin w = F64.fin y := hy
  rw [hx', hy', F64.fin_lt_fin]
  rw [abs_le] at hxe hye hde
  have hba : 1 / 100 ≤ b - a := by
    have : (1 : ℚ) / 2 ^ 48 ≤ 1 / 1000 := by norm_num
    linarith
  have hprod : (1 : ℚ) / 100 * (1 / 2 ^ 40) ≤ (b - a) * w :=
    mul_le_mul hba hlo (by norm_num) (by linarith)
  have hnum : (1 : ℚ) / 2 ^ 48 + 1 / 2 ^ 48 < 1 / 100 * (1 / 2 ^ 40) := by norm_num
  have : (b - a) * w = b * w - a * w := by ring
  linarith

theorem takeWhile_all {α : Type} {p : α → Bool} {l : List α} (h : ∀ a ∈ l, p a = true) :
    l.takeWhile p = l := by
  induction l with
  | nil => rfl
  | cons a t ih =>
    rw [List.takeWhile_cons_of_pos (h a List.mem_cons_self),
      ih fun b hb => h b (List.mem_cons_of_mem _ hb)]

theorem goodness_of_rank {q : Subquery} {g : MatchEntry} {e : CoalesceEntry}
    (h : (toEntry g q 0).rank ≤ e.rank) : AtLeastAsGood q g (singleContext e) :=
  rank_le_iff.1 h

theorem better_of_rank {q : Subquery} {g : MatchEntry} {e : CoalesceEntry}
    (h : (toEntry g q 0).rank < e.rank) : Better q g (singleContext e) := by
  unfold CoalesceEntry.rank at h
  rw [Prod.Lex.toLex_lt_toLex] at h
  exact h

theorem Spec.AtLeastAsGood.trans {q : Subquery} {g : MatchEntry} {c d : Context}
    (h : AtLeastAsGood q g c) (h' : BestFirst d c) : AtLeastAsGood q g d := by
  rcases h with h | ⟨h, h1⟩ <;> rcases h' with h' | ⟨h', h2⟩
  · exact Or.inl (h.trans h')
  · exact Or.inl (by rw [← h']; exact h)
  · exact Or.inl (by rw [h]; exact h')
  · exact Or.inr ⟨h.trans h', h1.trans h2⟩

/-- C62. Whatever the number of features: take a result of the query of a single phrase match that
is less than 0.25 below the best one. `coalesce` returns its feature in a context that is at least
as good; or it returns 40 contexts, all at least as good; or the feature id changes more than 80
times along the results, and everything it returns (something is) is at least as good, and better
if there is a proximity point. Results in another language
must lie all within the radius of the proximity point or all outside it: else they may come out of
order (`C22_proximity_not_sorted`). The first result must not be
feature 0 with score-distance 0 (`C37_feature_zero_lost`). -/
theorem C62_single_best (o : IterOrder) (b : Builder) (hb : b.Wf) (db : SMap Bytes Bytes)
    (hfin : finish o b = some db) (hsmall : SmallRecords db) (env : Env) (os : ℕ → IterOrder)
    (q : Subquery) (hs : q.store.db = db) (k : KeyWithId) (hk : q.matchKeys.head? = some k)
    (hst : k.key.phrase.start < 2 ^ 32) (opts : MatchOpts) (ho : OptsWf opts)
    (hn : NumbersOk opts q.store.radius)
    (hwv : q.weight.Valid) (hlo : .fin (1 / 2 ^ 40) ≤ q.weight) (hhi : q.weight ≤ 1)
    (grids : List MatchEntry) (hg : env.query q.store k.key opts 80 = some grids)
    (hlang : SameSide opts q.store.radius grids)
    (hzero : ∀ g, grids.head? = some g → g.entry.id ≠ 0 ∨ 0 < g.scoredist)
    (out : List Context) (hout : coalesce env os [q] opts = some out)
    (g : MatchEntry) (hgm : g ∈ grids)
    (hclose : ∀ g' ∈ grids, F64.flt (g'.entry.relev * q.weight - g.entry.relev * q.weight)
      (lit 0.25) = true) :
    (∃ c ∈ out, ∃ r ∈ grids, r.entry.id = g.entry.id ∧ MadeFrom q r c.first ∧
      AtLeastAsGood q g c) ∨
    (out.length = 40 ∧ ∀ c ∈ out, AtLeastAsGood q g c) ∨
    (80 < idChanges 0 (grids.map (·.entry.id)) ∧ out ≠ [] ∧
      ∀ c ∈ out, AtLeastAsGood q g c ∧ (opts.proximity ≠ none → Better q g c)) := by
  have hw0 : 0 ≤ q.weight := le_trans (by decide +kernel) hlo
  have hw : q.weight.IsFin := isFin_of_between (b := 1) trivial hw0 hhi
  have hres := getMatching_mem hg
  have hsorted := falls_of_sameSide (C22_relevance_partial db (laidOut_finish hb hfin hsmall) q.store
    hs env.merger env.rows env.chk k.key hst opts ho hn 80 (by decide) grids hg) hlang
  have hmono : ∀ a ∈ grids, ∀ c ∈ grids, c.entry.relev ≤ a.entry.relev →
      c.entry.relev * q.weight ≤ a.entry.relev * q.weight := fun a ha c hc hle =>
    F64.mul_mono (hres c hc).relev_bounds.1 hw (hres a ha).relev_bounds.1 hw hw0
      (hres a ha).relev_bounds.2.2.1.le hle (le_refl _)
  have hok : LoopOk ([] ++ grids.map fun g => toEntry g q 0) := by
    rw [List.nil_append]
    refine ⟨?_, ?_, ?_, ?_⟩
    · rw [List.pairwise_map]
      exact hsorted.imp_of_mem fun ha hc hle => hmono _ ha _ hc hle
    · intro e he
      obtain ⟨g, hg, rfl⟩ := List.mem_map.1 he
      obtain ⟨h1, _, h2, h3⟩ := (hres g hg).relev_bounds
      have h0 := F64.mul_nonneg' h1 hw h2.le hw0
      exact ⟨isFin_of_between hw h0 (F64.mul_le_right h1 hw hwv hw0 h3), h0⟩
    · intro e he
      obtain ⟨g, hg, rfl⟩ := List.mem_map.1 he
      exact (hres g hg).scoredist_ne_nan ho hn
    · intro e he
      rw [List.head?_map, Option.map_eq_some_iff] at he
      obtain ⟨g, hgh, rfl⟩ := he
      exact hzero g hgh
  have hranked : opts.proximity.isNone = true →
      ([] ++ grids.map fun g => toEntry g q 0).Pairwise
        fun (a b : CoalesceEntry) => b.rank ≤ a.rank := by
    intro hpr
    rw [Option.isNone_iff_eq_none] at hpr
    rw [List.nil_append, List.pairwise_map]
    refine (C22_best_first_partial db (laidOut_finish hb hfin hsmall) q.store hs env.merger env.rows
        env.chk k.key hst opts ho hpr 80 (by decide) grids hg).imp_of_mem ?_
    intro a c ha hc hac
    rw [rank_le_iff]
    rcases hac with h | ⟨h, h'⟩
    · exact Or.inl (weighted_apart (hres c hc) (hres a ha) hlo hhi h)
    · exact Or.inr ⟨by show c.entry.relev * _ = a.entry.relev * _; rw [h], h'⟩
  obtain ⟨cs, hcs, hsub, hpick⟩ := mem_allContexts hout
  have hall := allContexts_sorted hcs
  have hcs : coalesceSingle env (os 0) q opts = some cs := hcs
  unfold coalesceSingle at hcs
  rw [Option.bind_eq_bind, Option.bind_eq_some_iff] at hcs
  obtain ⟨m, hm, hcs⟩ := hcs
  rw [Option.some.injEq] at hcs
  unfold singleFeatures at hm
  rw [hk] at hm
  have hg' : env.query q.store k.key opts (2 * maxContexts) = some grids := hg
  simp only [Option.bind_eq_bind, Option.bind_some, hg', Option.bind_eq_some_iff] at hm
  obtain ⟨s, hloop, hm⟩ := hm
  cases hm
  have hmk : ∀ g e, mkEntry env.chk opts q 0 g = some e → e = toEntry g q 0 :=
    fun g e h => mkEntry_some h
  obtain ⟨hfrom, hset⟩ := singleLoop_full (done := []) hmk hok hranked fullInv_init hloop
  rw [List.nil_append] at hfrom hset hok
  have hc : CloseTo (grids.map fun g => toEntry g q 0) (toEntry g q 0) := by
    intro a ha
    obtain ⟨g', hg', rfl⟩ := List.mem_map.1 ha
    exact hclose g' hg'
  have hids := getMatching_ids (by rw [hs]; exact (Directory.finish hb hfin).bytes) hg
  -- where contexts come from
  have hmem : ∀ c, c ∈ ((os 0).run s.coalesced).map (fun p => singleContext p.2) ↔
      ∃ p ∈ s.coalesced, singleContext p.2 = c := by
    intro c
    rw [List.mem_map]
    constructor
    · rintro ⟨p, hp, rfl⟩
      exact ⟨p, ((os 0).perm _).mem_iff.1 hp, rfl⟩
    · rintro ⟨p, hp, rfl⟩
      exact ⟨p, ((os 0).perm _).mem_iff.2 hp, rfl⟩
  have hperm := List.perm_insertionSort (fun a b : Context => b.singleKey ≤ a.singleKey)
    (((os 0).run s.coalesced).map fun p => singleContext p.2)
  have hctx : ∀ c ∈ cs, ∃ p ∈ s.coalesced, ∃ r ∈ grids, p.2 = toEntry r q 0 ∧
      c = singleContext p.2 := by
    intro c hcm
    rw [← hcs] at hcm
    obtain ⟨p, hp, hpc⟩ := (hmem c).1 (hperm.mem_iff.1 (List.mem_of_mem_take hcm))
    obtain ⟨r, hr, hrp⟩ := List.mem_map.1 (hfrom p hp).1
    exact ⟨p, hp, r, hr, hrp.symm, hpc.symm⟩
  rcases hset _ (List.mem_map_of_mem hgm) hc with ⟨v, hv, hvr⟩ | ⟨hch, hne, hrank⟩
  · -- an entry of the feature is collected
    have hvm := HMap.mem_of_find hv
    obtain ⟨hvg, hvid⟩ := hfrom _ hvm
    obtain ⟨rv, hrv, hrve⟩ := List.mem_map.1 hvg
    have hrve : toEntry rv q 0 = v := hrve
    have hvin : singleContext v ∈ (((os 0).run s.coalesced).map fun p => singleContext p.2).insertionSort
        (fun a b : Context => b.singleKey ≤ a.singleKey) :=
      hperm.mem_iff.2 ((hmem _).2 ⟨_, hvm, rfl⟩)
    have hgood : AtLeastAsGood q g (singleContext v) := goodness_of_rank hvr
    have hsort := pairwise_insertionSort_desc Context.singleKey
      (((os 0).run s.coalesced).map fun p => singleContext p.2)
    -- nothing at least as good is cut off
    have hnear : ∀ c ∈ cs, AtLeastAsGood q g c → ∀ a ∈ cs,
        F64.fle (lit 0.25) (a.relev - c.relev) = false := by
      intro c hcm hcg a ham
      obtain ⟨p, hp, r, hr, hpr, rfl⟩ := hctx c hcm
      obtain ⟨p', hp', r', hr', hpr', rfl⟩ := hctx a ham
      have h1 := hclose r' hr'
      have hr1 : (singleContext p.2).relev = r.entry.relev * q.weight := by rw [hpr]; rfl
      have hr1' : (singleContext p'.2).relev = r'.entry.relev * q.weight := by rw [hpr']; rfl
      have hle : g.entry.relev * q.weight ≤ r.entry.relev * q.weight := by
        rw [← hr1]
        rcases hcg with h | h
        · exact h.le
        · exact h.1.le
      rw [hr1, hr1']
      have f1 : (r.entry.relev * q.weight).IsFin := (hok.relev _ (List.mem_map_of_mem (f := fun g => toEntry g q 0) hr)).1
      have f2 : (r'.entry.relev * q.weight).IsFin := (hok.relev _ (List.mem_map_of_mem (f := fun g => toEntry g q 0) hr')).1
      have f3 : (g.entry.relev * q.weight).IsFin := (hok.relev _ (List.mem_map_of_mem (f := fun g => toEntry g q 0) hgm)).1
      have hsub := F64.sub_mono f2 f1 f2 f3 (le_refl _) hle
      rw [flt_iff (sub_ne_nan f2 f3) quarter_ne_nan] at h1
      rw [Bool.eq_false_iff, Ne, fle_iff quarter_ne_nan (sub_ne_nan f2 f1), not_le]
      exact lt_of_le_of_lt hsub h1
    have hhead : ∀ c ∈ cs, cs.headD ⟨0, 0, []⟩ ∈ cs := by
      intro c hcm
      cases cs with
      | nil => cases hcm
      | cons a t => exact List.mem_cons_self
    by_cases hin : singleContext v ∈ cs
    · rcases pickContexts_complete (r := (cs.headD ⟨0, 0, []⟩).relev) hall hin 0 [] with
        h | h | ⟨d, hd, hdi, hdr⟩ | ⟨h40, hd⟩ | ⟨x, hx, hxm, hxf⟩
      · rw [← hpick] at h
        exact Or.inl ⟨_, h, rv, hrv, by rw [← hrve] at hvid; exact hvid,
          by rw [← hrve]; exact toEntry_madeFrom q rv, hgood⟩
      · cases h
      · rw [← hpick] at hd
        obtain ⟨p, hp, r, hr, hpr, rfl⟩ := hctx d (hsub d hd)
        refine Or.inl ⟨_, hd, r, hr, ?_, by rw [hpr]; exact toEntry_madeFrom q r,
          hgood.trans hdr⟩
        have hid : r.entry.id = rv.entry.id := by
          refine tmpId_inj (idx := q.idx) (hids r hr) (hids rv hrv) ?_
          have e1 : (singleContext p.2).first.tmpId = tmpIdOf q.idx r.entry.id := by rw [hpr]; rfl
          have e2 : (singleContext v).first.tmpId = tmpIdOf q.idx rv.entry.id := by rw [← hrve]; rfl
          rw [← e1, ← e2]
          exact hdi
        rw [hid]
        rw [← hrve] at hvid
        exact hvid
      · rw [← hpick] at h40 hd
        refine Or.inr (Or.inl ⟨?_, fun c hc => hgood.trans (hd c hc)⟩)
        have := pickContexts_length (cs.headD ⟨0, 0, []⟩).relev 0 [] cs
        rw [← hpick] at this
        unfold maxContexts at this h40
        omega
      · exfalso
        have hxg : AtLeastAsGood q g x := by
          rcases hx with rfl | hx
          · exact hgood
          · exact hgood.trans hx
        rw [hnear x hxm hxg _ (hhead x hxm)] at hxf
        cases hxf
    · -- forty others come before it
      have hbefore : ∀ c ∈ cs, BestFirst c (singleContext v) := by
        intro c hcm
        rw [← hcs] at hcm hin
        have hsplit := List.take_append_drop maxContexts
          ((((os 0).run s.coalesced).map fun p => singleContext p.2).insertionSort
            (fun a b : Context => b.singleKey ≤ a.singleKey))
        rw [← hsplit] at hsort hvin
        have hdrop : singleContext v ∈ List.drop maxContexts
            ((((os 0).run s.coalesced).map fun p => singleContext p.2).insertionSort
              (fun a b : Context => b.singleKey ≤ a.singleKey)) := by
          rcases List.mem_append.1 hvin with h | h
          · exact absurd h hin
          · exact h
        exact bestFirst_of_singleKey ((List.pairwise_append.1 hsort).2.2 c hcm _ hdrop)
      have hlen : cs.length = 40 := by
        have h1 : (List.take maxContexts ((((os 0).run s.coalesced).map fun p =>
            singleContext p.2).insertionSort (fun a b : Context => b.singleKey ≤ a.singleKey))).length
            = 40 := by
          rw [List.length_take]
          by_contra hne
          have hle : ((((os 0).run s.coalesced).map fun p => singleContext p.2).insertionSort
              (fun a b : Context => b.singleKey ≤ a.singleKey)).length ≤ maxContexts := by
            unfold maxContexts at hne ⊢
            omega
          rw [← hcs, List.take_of_length_le hle] at hin
          exact hin hvin
        rw [hcs] at h1
        exact h1
      have hnd : cs.Pairwise fun a b => a.first.tmpId ≠ b.first.tmpId := by
        rw [← hcs]
        refine List.Pairwise.sublist (List.take_sublist _ _) ?_
        have hsymm : ∀ {x y : Context}, x.first.tmpId ≠ y.first.tmpId →
            y.first.tmpId ≠ x.first.tmpId := fun h => h.symm
        refine ((hperm.trans (((os 0).perm _).map _)).pairwise_iff hsymm).2 ?_
        rw [List.pairwise_map]
        have hwf := (singleLoop_collected hloop).wf
        unfold HMap.Wf at hwf
        refine List.Pairwise.imp_of_mem ?_ (List.pairwise_map.1 hwf)
        intro x y hx hy hxy heq
        obtain ⟨rx, hrx, hrxe⟩ := List.mem_map.1 (hfrom x hx).1
        obtain ⟨ry, hry, hrye⟩ := List.mem_map.1 (hfrom y hy).1
        rw [← (hfrom x hx).2, ← (hfrom y hy).2, ← hrxe, ← hrye] at hxy
        rw [← hrxe, ← hrye] at heq
        exact hxy (tmpId_inj (hids rx hrx) (hids ry hry) heq)
      have hout40 : out = cs := by
        rw [hpick, pick_takeWhile _ 0 [] cs (by rw [hlen]; decide) (by simp) hnd]
        refine takeWhile_all ?_
        intro c hcm
        rw [hnear c hcm (hgood.trans (hbefore c hcm)) _ (hhead c hcm)]
        rfl
      exact Or.inr (Or.inl ⟨by rw [hout40]; exact hlen, fun c hcm =>
        hgood.trans (hbefore c (hsub c hcm))⟩)
  · right; right
    refine ⟨by rw [List.map_map] at hch; exact hch, ?_, ?_⟩
    · obtain ⟨p, hp⟩ := List.exists_mem_of_ne_nil _ hne
      have hin : singleContext p.2 ∈ (((os 0).run s.coalesced).map fun p =>
          singleContext p.2).insertionSort (fun a b : Context => b.singleKey ≤ a.singleKey) :=
        hperm.mem_iff.2 ((hmem _).2 ⟨_, hp, rfl⟩)
      have hcne : cs ≠ [] := by
        rw [← hcs, Ne, List.take_eq_nil_iff, not_or]
        exact ⟨by decide, List.ne_nil_of_mem hin⟩
      cases cs with
      | nil => exact absurd rfl hcne
      | cons c t =>
        rw [hpick]
        intro h0
        have := pickContexts_head (c := c) (t := t)
        rw [List.headD_cons] at h0
        rw [h0] at this
        cases this
    · intro c hcm
      obtain ⟨p, hp, r, hr, hpr, rfl⟩ := hctx c (hsub c hcm)
      have := hrank p hp
      exact ⟨goodness_of_rank this.1, fun h => better_of_rank (this.2 (by
        cases hx : opts.proximity with
        | none => exact absurd hx h
        | some _ => rfl))⟩

/-- The hypotheses hold for the region index and a proximity point; feature 4 is found. -/
example : ∃ out, coalesce listEnv (fun _ => .id) [regionMatch] ⟨none, some (3, 3), 6⟩ = some out ∧
    ∃ c ∈ out, c.first.entry.id = 4 := by
  have hdb : finish .id regionBuilder = some ((finish .id regionBuilder).getD []) := by
    decide +kernel
  obtain ⟨grids, hg⟩ : ∃ grids, listEnv.query regionMatch.store ⟨.exact 1, 1⟩
      ⟨none, some (3, 3), 6⟩ 80 = some grids := Option.isSome_iff_exists.1 (by decide +kernel)
  obtain ⟨out, hout⟩ : ∃ out, coalesce listEnv (fun _ => .id) [regionMatch]
      ⟨none, some (3, 3), 6⟩ = some out := Option.isSome_iff_exists.1 (by decide +kernel)
  have hgv : grids = (listEnv.query regionMatch.store ⟨.exact 1, 1⟩
    ⟨none, some (3, 3), 6⟩ 80).getD [] := by rw [hg, Option.getD_some]
  have hov : out.length ≠ 40 := by
    have : out = (coalesce listEnv (fun _ => .id) [regionMatch]
      ⟨none, some (3, 3), 6⟩).getD [] := by rw [hout, Option.getD_some]
    rw [this]
    decide +kernel
  obtain ⟨g, hgm, hid⟩ : ∃ g ∈ grids, g.entry.id = 4 := by rw [hgv]; decide +kernel
  have hcl : ∀ g ∈ grids, ∀ g' ∈ grids, F64.flt (g'.entry.relev * regionMatch.weight -
      g.entry.relev * regionMatch.weight) (lit 0.25) = true := by rw [hgv]; decide +kernel
  refine ⟨out, hout, ?_⟩
  rcases C62_single_best .id regionBuilder regionBuilder_wf _ hdb (by decide +kernel) listEnv
      (fun _ => .id) regionMatch rfl _ rfl (by decide) ⟨none, some (3, 3), 6⟩
      ⟨by simp, by simp⟩ (fun _ => ⟨by decide, by decide +kernel⟩) (by decide +kernel)
      (by decide +kernel) (by decide +kernel) grids hg (by unfold SameSide; rw [hgv]; decide +kernel)
      (by
        have h0 : ∀ g ∈ grids, g.entry.id ≠ 0 := by rw [hgv]; decide +kernel
        exact fun g hgh => Or.inl (h0 g (List.mem_of_mem_head? hgh)))
      out hout g hgm (hcl g hgm) with
    ⟨c, hc, r, -, hr, hm, -⟩ | ⟨h, -⟩ | ⟨h, -⟩
  · exact ⟨c, hc, hm.1.trans (hr.trans hid)⟩
  · exact absurd h hov
  · exact absurd h (by rw [hgv]; decide +kernel)

/-- 81 features far from the point (60, 5), and a near one with the lowest score. -/
def farAndNear : List GridEntry :=
  ((List.range 81).map fun i => ⟨1, 7, 200, 100 + i, i + 1, 0⟩) ++ [⟨1, 0, 5, 6, 100, 0⟩]

/-- A store with these features for the language set `lang`. -/
def farStore (lang : ℕ) : Store :=
  Store.openWith ((finish .id (Builder.new.append ⟨1, lang⟩ farAndNear)).getD []) 14 0 (lit 100) [] 0

/-- A phrase match in this store, for language 0. -/
def farMatch (lang : ℕ) : Subquery := ⟨farStore lang, 0, [], 1, 1, [⟨⟨.exact 1, 1⟩, false, 0, 5⟩]⟩

/-- The condition on languages is needed: here all features are in another language, the near one
keeps its relevance 1 because it is within the radius, the others are reported with relevance 0.96.
`coalesce` returns 40 of the others and loses the only result of relevance 1. -/
theorem C62_other_language_lost :
    ∃ grids out, listEnv.query (farStore 2) ⟨.exact 1, 1⟩ ⟨none, some (60, 5), 14⟩ 80 = some grids ∧
      (∃ g ∈ grids, g.entry.id = 100 ∧ g.entry.relev = 1) ∧
      coalesce listEnv (fun _ => .id) [farMatch 2] ⟨none, some (60, 5), 14⟩ = some out ∧
      out.length = 40 ∧ ∀ c ∈ out, c.relev = lit 0.96 ∧ c.first.entry.id ≠ 100 := by
  have h1 : (listEnv.query (farStore 2) ⟨.exact 1, 1⟩ ⟨none, some (60, 5), 14⟩ 80).map (fun gs =>
      decide (∃ g ∈ gs, g.entry.id = 100 ∧ g.entry.relev = 1)) = some true := by decide +kernel
  have h2 : (coalesce listEnv (fun _ => .id) [farMatch 2] ⟨none, some (60, 5), 14⟩).map (fun out =>
      decide (out.length = 40 ∧ ∀ c ∈ out, c.relev = lit 0.96 ∧ c.first.entry.id ≠ 100)) =
        some true := by decide +kernel
  obtain ⟨gs, hg, hg'⟩ := Option.map_eq_some_iff.1 h1
  obtain ⟨out, ho, ho'⟩ := Option.map_eq_some_iff.1 h2
  exact ⟨gs, out, hg, of_decide_eq_true hg', ho, of_decide_eq_true ho'⟩

end Carmen

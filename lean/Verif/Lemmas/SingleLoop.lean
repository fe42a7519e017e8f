import Verif.Lemmas.Coalesce
import Verif.Lemmas.StackPath
import Verif.Spec.Coalesce

/-!
# What the loop of `coalesce_single` collects
-/

namespace Carmen
open Spec

theorem flt_iff {a b : F64} (ha : a ≠ .nan) (hb : b ≠ .nan) : F64.flt a b = true ↔ a < b := by
  unfold F64.flt
  simp [ha, hb]

theorem fle_iff {a b : F64} (ha : a ≠ .nan) (hb : b ≠ .nan) : F64.fle a b = true ↔ a ≤ b := by
  unfold F64.fle
  simp [ha, hb]

theorem isFin_ne_nan {a : F64} (h : a.IsFin) : a ≠ .nan := by
  rintro rfl
  exact h

theorem sub_ne_nan {a b : F64} (ha : a.IsFin) (hb : b.IsFin) : a - b ≠ .nan := by
  obtain ⟨a, rfl⟩ := ha.exists
  obtain ⟨b, rfl⟩ := hb.exists
  exact F64.ofRat_ne_nan _

theorem quarter_ne_nan : lit 0.25 ≠ .nan := F64.ofRat_ne_nan _

/-- The rank of an entry: relevance, then score-distance. -/
def CoalesceEntry.rank (e : CoalesceEntry) : F64 ×ₗ F64 := toLex (e.entry.relev, e.scoredist)

theorem rank_le_iff {a b : CoalesceEntry} : a.rank ≤ b.rank ↔
    a.entry.relev < b.entry.relev ∨ (a.entry.relev = b.entry.relev ∧ a.scoredist ≤ b.scoredist) := by
  unfold CoalesceEntry.rank
  rw [Prod.Lex.toLex_le_toLex]

/-- What the loop needs of the entries it sees. -/
structure LoopOk (es : List CoalesceEntry) : Prop where
  sorted : es.Pairwise fun a b => b.entry.relev ≤ a.entry.relev
  relev : ∀ e ∈ es, e.entry.relev.IsFin ∧ 0 ≤ e.entry.relev
  sd : ∀ e ∈ es, e.scoredist ≠ .nan
  zero : ∀ e, es.head? = some e → e.entry.id ≠ 0 ∨ 0 < e.scoredist

/-- Less than 0.25 below every one of the entries. -/
def CloseTo (es : List CoalesceEntry) (e : CoalesceEntry) : Prop :=
  ∀ a ∈ es, F64.flt (a.entry.relev - e.entry.relev) (lit 0.25) = true

/-- The state after a number of entries. -/
structure LoopInv (done : List CoalesceEntry) (s : SingleState) : Prop where
  maxRelev : s.maxRelev = 0 ∨ ∃ e ∈ done, s.maxRelev = e.entry.relev
  prevId : s.prevId = (done.map (·.entry.id)).getLastD 0
  prev : (done = [] ∧ s.prevId = 0 ∧ s.prevSd = 0) ∨ ∃ e ∈ done, s.prevId = e.entry.id ∧ s.prevSd = e.scoredist
  from_done : ∀ p ∈ s.coalesced, p.2 ∈ done ∧ p.2.entry.id = p.1
  best : ∀ e ∈ done, ∃ v, HMap.find e.entry.id s.coalesced = some v ∧ e.rank ≤ v.rank

theorem idChanges_append (p : ℕ) (l : List ℕ) (a : ℕ) :
    idChanges p (l ++ [a]) = idChanges p l + if l.getLastD p ≠ a then 1 else 0 := by
  induction l generalizing p with
  | nil => simp [idChanges]
  | cons b t ih =>
    rw [List.cons_append, idChanges, idChanges, ih b, Nat.add_assoc]
    congr 2
    cases t with
    | nil => rfl
    | cons c r => rfl

theorem idChanges_le_append (p : ℕ) (l l' : List ℕ) : idChanges p l ≤ idChanges p (l ++ l') := by
  induction l generalizing p with
  | nil => exact Nat.zero_le _
  | cons b t ih =>
    rw [List.cons_append, idChanges, idChanges]
    exact Nat.add_le_add_left (ih b) _

theorem getLastD_append_singleton {α : Type} (l : List α) (a d : α) :
    (l ++ [a]).getLastD d = a := by
  simp

theorem maxRelev_isFin {es done : List CoalesceEntry} (hok : LoopOk (done ++ es))
    {s : SingleState} (h : LoopInv done s) : s.maxRelev.IsFin := by
  rcases h.maxRelev with h | ⟨e, he, h⟩
  · rw [h]; trivial
  · rw [h]; exact (hok.relev e (List.mem_append_left _ he)).1

theorem loop_skip {es done : List CoalesceEntry} {e : CoalesceEntry}
    (hok : LoopOk (done ++ e :: es)) {s : SingleState} (h : LoopInv done s)
    (hid : s.prevId = e.entry.id) (hsd : F64.fle e.scoredist s.prevSd = true) :
    LoopInv (done ++ [e]) s := by
  have hmem : e ∈ done ++ e :: es := by simp
  have hle : e.scoredist ≤ s.prevSd := by
    unfold F64.fle at hsd
    exact (of_decide_eq_true hsd).2.2
  have hfirst : ¬ (done = [] ∧ s.prevId = 0 ∧ s.prevSd = 0) := by
    rintro ⟨rfl, h0, h1⟩
    rw [h0] at hid
    rw [h1] at hle
    rcases hok.zero e rfl with h2 | h2
    · exact absurd hid.symm h2
    · exact absurd h2 (not_lt.2 hle)
  refine ⟨?_, ?_, ?_, ?_, ?_⟩
  · rcases h.maxRelev with h' | ⟨a, ha, h'⟩
    · exact Or.inl h'
    · exact Or.inr ⟨a, List.mem_append_left _ ha, h'⟩
  · rw [List.map_append, List.map_singleton, getLastD_append_singleton, hid]
  · rcases h.prev with h' | ⟨a, ha, h'⟩
    · exact (hfirst h').elim
    · exact Or.inr ⟨a, List.mem_append_left _ ha, h'⟩
  · intro p hp
    exact ⟨List.mem_append_left _ (h.from_done p hp).1, (h.from_done p hp).2⟩
  · intro a ha
    rcases List.mem_append.1 ha with ha | ha
    · exact h.best a ha
    · rw [List.mem_singleton] at ha
      subst ha
      rcases h.prev with h' | ⟨b, hb, h0, h1⟩
      · exact (hfirst h').elim
      · obtain ⟨v, hv, hvr⟩ := h.best b hb
        refine ⟨v, ?_, le_trans ?_ hvr⟩
        · rw [← hid, h0]; exact hv
        · rw [rank_le_iff]
          have hrel : a.entry.relev ≤ b.entry.relev :=
            (List.pairwise_append.1 hok.sorted).2.2 b hb a List.mem_cons_self
          rcases lt_or_eq_of_le hrel with hlt | heq
          · exact Or.inl hlt
          · exact Or.inr ⟨heq, by rw [← h1]; exact hle⟩

theorem loop_take {es done : List CoalesceEntry} {e : CoalesceEntry}
    (hok : LoopOk (done ++ e :: es)) {s : SingleState} (h : LoopInv done s) :
    LoopInv (done ++ [e]) (s.record e) := by
  have hmem : e ∈ done ++ e :: es := by simp
  have hdone : ∀ a ∈ done, a ∈ done ++ e :: es := fun a ha => List.mem_append_left _ ha
  refine ⟨?_, ?_, ?_, ?_, ?_⟩
  · have hm : (s.record e).maxRelev =
        if F64.flt s.maxRelev e.entry.relev then e.entry.relev else s.maxRelev := rfl
    rw [hm]
    split_ifs
    · exact Or.inr ⟨e, by simp, rfl⟩
    · rcases h.maxRelev with h' | ⟨a, ha, h'⟩
      · exact Or.inl h'
      · exact Or.inr ⟨a, List.mem_append_left _ ha, h'⟩
  · rw [List.map_append, List.map_singleton, getLastD_append_singleton]
    rfl
  · exact Or.inr ⟨e, by simp, rfl, rfl⟩
  · refine HMap.forall_upsert (P := fun k (v : CoalesceEntry) => v ∈ done ++ [e] ∧ v.entry.id = k)
      (fun p hp => ⟨List.mem_append_left _ (h.from_done p hp).1, (h.from_done p hp).2⟩)
      ⟨by simp, rfl⟩ ?_
    intro v hv
    rcases betterOf_cases e v with h' | h' <;> rw [h']
    · exact ⟨by simp, rfl⟩
    · exact hv
  · -- the best entry of each feature
    have hfind : ∀ k, HMap.find k (s.record e).coalesced =
        if k = e.entry.id then some (betterOf e ((HMap.find e.entry.id s.coalesced).getD e))
        else HMap.find k s.coalesced := fun k => HMap.find_upsert _ _ _ _ _
    -- the new value is at least as good as the new entry and as the old value
    have hnew : ∀ old, HMap.find e.entry.id s.coalesced = some old →
        e.rank ≤ (betterOf e old).rank ∧ old.rank ≤ (betterOf e old).rank := by
      intro old hold
      have hod := (h.from_done _ (HMap.mem_of_find hold)).1
      have hrel : e.entry.relev ≤ old.entry.relev :=
        (List.pairwise_append.1 hok.sorted).2.2 old hod e List.mem_cons_self
      have hsd1 := hok.sd e hmem
      have hsd2 := hok.sd old (hdone old hod)
      unfold betterOf
      split_ifs with hb
      · rw [Bool.and_eq_true, flt_iff hsd2 hsd1] at hb
        have hle : old.entry.relev ≤ e.entry.relev := by
          have := hb.2
          unfold F64.fle at this
          exact (of_decide_eq_true this).2.2
        refine ⟨le_refl _, ?_⟩
        rw [rank_le_iff]
        exact Or.inr ⟨le_antisymm hle hrel, hb.1.le⟩
      · refine ⟨?_, le_refl _⟩
        rw [rank_le_iff]
        rcases lt_or_eq_of_le hrel with hlt | heq
        · exact Or.inl hlt
        · refine Or.inr ⟨heq, ?_⟩
          by_contra hlt
          rw [not_le] at hlt
          refine hb ?_
          rw [Bool.and_eq_true, flt_iff hsd2 hsd1,
            fle_iff (isFin_ne_nan (hok.relev old (hdone old hod)).1)
              (isFin_ne_nan (hok.relev e hmem).1)]
          exact ⟨hlt, heq.symm.le⟩
    intro a ha
    rw [hfind]
    rcases List.mem_append.1 ha with ha | ha
    · obtain ⟨v, hv, hvr⟩ := h.best a ha
      by_cases hk : a.entry.id = e.entry.id
      · rw [if_pos hk]
        rw [hk] at hv
        refine ⟨_, rfl, ?_⟩
        rw [hv, Option.getD_some]
        exact hvr.trans (hnew v hv).2
      · rw [if_neg hk]
        exact ⟨v, hv, hvr⟩
    · rw [List.mem_singleton] at ha
      subst ha
      rw [if_pos rfl]
      refine ⟨_, rfl, ?_⟩
      cases hf : HMap.find a.entry.id s.coalesced with
      | none =>
        rw [Option.getD_none]
        rcases betterOf_cases a a with h' | h' <;> rw [h']
      | some old =>
        rw [Option.getD_some]
        exact (hnew old hf).1

theorem flt_zero_sub {r : F64} (h : r.IsFin) (h0 : 0 ≤ r) : F64.fle (lit 0.25) (0 - r) = false := by
  have hle : (0 : F64) - r ≤ 0 - 0 := F64.sub_mono trivial h trivial trivial (le_refl _) h0
  have h00 : (0 : F64) - 0 < lit 0.25 := by decide +kernel
  unfold F64.fle
  simp only [decide_eq_false_iff_not, not_and, not_le]
  intro _ _
  exact lt_of_le_of_lt hle h00

theorem singleMove_few {s : SingleState} {e : CoalesceEntry} {noProx : Bool}
    (h1 : ¬ (2 * maxContexts < s.count))
    (h2 : ¬ (2 * maxContexts < (if s.prevId ≠ e.entry.id then s.count + 1 else s.count))) :
    singleMove noProx s e =
      if s.prevId = e.entry.id ∧ F64.fle e.scoredist s.prevSd = true then .skip
      else if F64.fle (lit 0.25) (s.maxRelev - e.entry.relev) = true then .stop else .take := by
  unfold singleMove
  generalize (if s.prevId ≠ e.entry.id then s.count + 1 else s.count) = n at h2 ⊢
  split_ifs <;> first | rfl | (exfalso; simp_all)

/-- The loop without proximity: at the end every entry that is less than 0.25 below the best is
represented by an entry of its feature at least as good, if the feature id changes at most 80
times. -/
theorem singleLoop_best {mk : MatchEntry → Option CoalesceEntry}
    {f : MatchEntry → CoalesceEntry} (hmk : ∀ g e, mk g = some e → e = f g)
    {done : List CoalesceEntry} {grids : List MatchEntry}
    (hok : LoopOk (done ++ grids.map f))
    (hch : idChanges 0 ((done ++ grids.map f).map (·.entry.id)) ≤ 80) {s s' : SingleState}
    (hinv : LoopInv done s) (hcount : s.count = idChanges 0 (done.map (·.entry.id)))
    (h : singleLoop mk true s grids = some s') :
    (∀ p ∈ s'.coalesced, p.2 ∈ done ++ grids.map f ∧ p.2.entry.id = p.1) ∧
    ∀ e ∈ done ++ grids.map f, CloseTo (done ++ grids.map f) e →
      ∃ v, HMap.find e.entry.id s'.coalesced = some v ∧ e.rank ≤ v.rank := by
  induction grids generalizing done s with
  | nil =>
    unfold singleLoop at h
    cases h
    rw [List.map_nil, List.append_nil]
    exact ⟨hinv.from_done, fun e he _ => hinv.best e he⟩
  | cons g t ih =>
    unfold singleLoop at h
    cases hg : mk g with
    | none => rw [hg] at h; simp at h
    | some e =>
      have he := hmk g e hg
      subst he
      rw [hg] at h
      simp only [Option.bind_eq_bind, Option.bind_some] at h
      rw [List.map_cons] at hok hch ⊢
      have hsplit : done ++ f g :: t.map f = (done ++ [f g]) ++ t.map f := by simp
      have hc' : (if s.prevId ≠ (f g).entry.id then s.count + 1 else s.count) =
          idChanges 0 ((done ++ [f g]).map (·.entry.id)) := by
        rw [List.map_append, List.map_singleton, idChanges_append, ← hinv.prevId, hcount]
        split_ifs <;> rfl
      have hle80 : idChanges 0 ((done ++ [f g]).map (·.entry.id)) ≤ 80 := by
        refine le_trans ?_ hch
        rw [hsplit, List.map_append (l₁ := done ++ [f g])]
        exact idChanges_le_append _ _ _
      have hcnt : s.count ≤ 80 := by
        rw [hcount]
        refine le_trans ?_ hle80
        rw [List.map_append]
        exact idChanges_le_append _ _ _
      have hn1 : ¬ (2 * maxContexts < s.count) := by unfold maxContexts; omega
      have hn2 : ¬ (2 * maxContexts < (if s.prevId ≠ (f g).entry.id then s.count + 1 else s.count)) := by
        rw [hc']; unfold maxContexts; omega
      rw [singleMove_few hn1 hn2] at h
      by_cases hskip : s.prevId = (f g).entry.id ∧ F64.fle (f g).scoredist s.prevSd = true
      · rw [if_pos hskip] at h
        have hinv' := loop_skip hok hinv hskip.1 hskip.2
        rw [hsplit] at hok hch ⊢
        refine ih hok hch hinv' ?_ h
        rw [← hc', if_neg (by rw [not_not]; exact hskip.1)]
      · rw [if_neg hskip] at h
        by_cases hstop : F64.fle (lit 0.25) (s.maxRelev - (f g).entry.relev) = true
        · rw [if_pos hstop] at h
          rw [← Option.some.inj h]
          refine ⟨fun p hp => ⟨List.mem_append_left _ (hinv.from_done p hp).1,
            (hinv.from_done p hp).2⟩, ?_⟩
          intro e he hclose
          rcases List.mem_append.1 he with hed | her
          · exact hinv.best e hed
          · -- this entry and all later ones are too far below
            exfalso
            clear ih
            have hfe := (hok.relev e he).1
            have hfg := (hok.relev (f g) (by simp)).1
            have hrel : e.entry.relev ≤ (f g).entry.relev := by
              rcases List.mem_cons.1 her with rfl | her
              · exact le_refl _
              · exact (List.pairwise_cons.1 (List.pairwise_append.1 hok.sorted).2.1).1 e her
            have hmf := maxRelev_isFin hok hinv
            have h1 : s.maxRelev - (f g).entry.relev ≤ s.maxRelev - e.entry.relev :=
              F64.sub_mono hmf hfg hmf hfe (le_refl _) hrel
            rw [fle_iff quarter_ne_nan (sub_ne_nan hmf hfg)] at hstop
            have h2 := hstop.trans h1
            rcases hinv.maxRelev with h0 | ⟨a, ha, h0⟩
            · rw [h0] at h2
              have := flt_zero_sub hfe (hok.relev e he).2
              have h3 : F64.fle (lit 0.25) (0 - e.entry.relev) = true :=
                (fle_iff quarter_ne_nan (sub_ne_nan (a := 0) trivial hfe)).2 h2
              rw [h3] at this
              cases this
            · have := hclose a (List.mem_append_left _ ha)
              rw [h0] at h2
              have hfa := (hok.relev a (List.mem_append_left _ ha)).1
              rw [flt_iff (sub_ne_nan hfa hfe) quarter_ne_nan] at this
              exact absurd this (not_lt.2 h2)
        · rw [if_neg hstop] at h
          have hinv' := loop_take hok hinv
          rw [hsplit] at hok hch ⊢
          exact ih hok hch hinv' hc' h

/-- The entry kept is at least as good as every entry of the feature. -/
theorem best_of_feature {es : List CoalesceEntry} (hok : LoopOk es) {e v : CoalesceEntry}
    (he : e ∈ es) (hclose : CloseTo es e) {m : HMap ℕ CoalesceEntry}
    (hbest : ∀ a ∈ es, CloseTo es a → ∃ v, HMap.find a.entry.id m = some v ∧ a.rank ≤ v.rank)
    (hv : HMap.find e.entry.id m = some v) : ∀ a ∈ es, a.entry.id = e.entry.id → a.rank ≤ v.rank := by
  intro a ha hid
  by_cases hca : CloseTo es a
  · obtain ⟨w, hw, hr⟩ := hbest a ha hca
    rw [hid, hv] at hw
    cases hw
    exact hr
  · unfold CloseTo at hca
    push Not at hca
    obtain ⟨b, hb, hlt⟩ := hca
    have hfb := (hok.relev b hb).1
    have hfa := (hok.relev a ha).1
    have hfe := (hok.relev e he).1
    rw [Ne, flt_iff (sub_ne_nan hfb hfa) quarter_ne_nan, not_lt] at hlt
    have hce := hclose b hb
    rw [flt_iff (sub_ne_nan hfb hfe) quarter_ne_nan] at hce
    have hlt' : a.entry.relev < e.entry.relev := by
      by_contra hge
      rw [not_lt] at hge
      exact absurd (lt_of_le_of_lt (F64.sub_mono hfb hfa hfb hfe (le_refl _) hge) hce) (not_lt.2 hlt)
    obtain ⟨w, hw, hr⟩ := hbest e he hclose
    rw [hv] at hw
    cases hw
    refine le_trans ?_ hr
    rw [rank_le_iff]
    exact Or.inl hlt'

end Carmen

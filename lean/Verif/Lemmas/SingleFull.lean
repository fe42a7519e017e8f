import Verif.Lemmas.SingleLoop

/-!
# What the loop of `coalesce_single` collects, whatever the number of features
-/

namespace Carmen
open Spec

/-- Kept out because everything collected is better: the bounds the loop holds. -/
def Outranked (s : SingleState) (e : CoalesceEntry) : Prop :=
  80 < s.count ∧ e.entry.relev ≤ s.prevRelev ∧ e.scoredist < s.minSd

/-- An entry of the same feature, at least as good, is collected. -/
def Kept (s : SingleState) (e : CoalesceEntry) : Prop :=
  ∃ v, HMap.find e.entry.id s.coalesced = some v ∧ e.rank ≤ v.rank

/-- The state after a number of entries. -/
structure FullInv (done : List CoalesceEntry) (s : SingleState) : Prop where
  maxRelev : s.maxRelev = 0 ∨ ∃ e ∈ done, s.maxRelev = e.entry.relev
  prev : (done = [] ∧ s.prevId = 0 ∧ s.prevSd = 0 ∧ s.count = 0) ∨
    ∃ e ∈ done, s.prevId = e.entry.id ∧ s.prevSd = e.scoredist ∧ s.prevRelev = e.entry.relev ∧
      Kept s e
  from_done : ∀ p ∈ s.coalesced, p.2 ∈ done ∧ p.2.entry.id = p.1
  relev : ∀ p ∈ s.coalesced, s.prevRelev ≤ p.2.entry.relev
  sd : ∀ p ∈ s.coalesced, s.minSd ≤ p.2.scoredist
  minSd : s.minSd ≠ .nan
  count : s.count + (if s.prevId ≠ (done.map (·.entry.id)).getLastD 0 then 1 else 0) ≤
    idChanges 0 (done.map (·.entry.id))
  best : ∀ e ∈ done, Kept s e ∨ Outranked s e

theorem fullInv_init : FullInv [] SingleState.init :=
  ⟨Or.inl rfl, Or.inl ⟨rfl, rfl, rfl, rfl⟩, fun _ hp => (List.not_mem_nil hp).elim,
    fun _ hp => (List.not_mem_nil hp).elim, fun _ hp => (List.not_mem_nil hp).elim,
    by simp [SingleState.init, F64.maxValue], by decide, fun _ hp => (List.not_mem_nil hp).elim⟩

theorem Outranked.lt {done : List CoalesceEntry} {s : SingleState} (h : FullInv done s)
    {e : CoalesceEntry} (ho : Outranked s e) : ∀ p ∈ s.coalesced, e.rank < p.2.rank := by
  intro p hp
  unfold CoalesceEntry.rank
  rw [Prod.Lex.toLex_lt_toLex]
  rcases lt_or_eq_of_le (ho.2.1.trans (h.relev p hp)) with h' | h'
  · exact Or.inl h'
  · exact Or.inr ⟨h', lt_of_lt_of_le ho.2.2 (h.sd p hp)⟩

/-- An entry that is passed over. -/
theorem full_skip {done : List CoalesceEntry} {e : CoalesceEntry} {s : SingleState}
    (h : FullInv done s) (hnew : done ≠ []) (hb : Kept s e ∨ Outranked s e) :
    FullInv (done ++ [e]) s := by
  refine ⟨?_, ?_, ?_, h.relev, h.sd, h.minSd, ?_, ?_⟩
  · rcases h.maxRelev with h' | ⟨a, ha, h'⟩
    · exact Or.inl h'
    · exact Or.inr ⟨a, List.mem_append_left _ ha, h'⟩
  · rcases h.prev with h' | ⟨a, ha, h'⟩
    · exact (hnew h'.1).elim
    · exact Or.inr ⟨a, List.mem_append_left _ ha, h'⟩
  · exact fun p hp => ⟨List.mem_append_left _ (h.from_done p hp).1, (h.from_done p hp).2⟩
  · have := h.count
    rw [List.map_append, List.map_singleton, idChanges_append, getLastD_append_singleton]
    generalize (done.map (·.entry.id)).getLastD 0 = d at this ⊢
    split_ifs at this ⊢ <;> omega
  · intro a ha
    rcases List.mem_append.1 ha with ha | ha
    · exact h.best a ha
    · rw [List.mem_singleton] at ha
      rw [ha]
      exact hb

theorem full_take {es done : List CoalesceEntry} {e : CoalesceEntry}
    (hok : LoopOk (done ++ e :: es)) {s : SingleState} (h : FullInv done s)
    (hmany : 80 < s.count → s.minSd ≤ e.scoredist ∧ s.prevRelev ≤ e.entry.relev) :
    FullInv (done ++ [e]) (s.record e) := by
  have hmem : e ∈ done ++ e :: es := by simp
  have hdone : ∀ a ∈ done, a ∈ done ++ e :: es := fun a ha => List.mem_append_left _ ha
  have hfind : ∀ k, HMap.find k (s.record e).coalesced =
      if k = e.entry.id then some (betterOf e ((HMap.find e.entry.id s.coalesced).getD e))
      else HMap.find k s.coalesced := fun k => HMap.find_upsert _ _ _ _ _
  have hmin : (s.record e).minSd = if F64.flt e.scoredist s.minSd then e.scoredist else s.minSd := rfl
  have hsde := hok.sd e hmem
  have hminle : (s.record e).minSd ≤ s.minSd ∧ (s.record e).minSd ≤ e.scoredist := by
    rw [hmin]
    split_ifs with hf
    · rw [flt_iff hsde h.minSd] at hf
      exact ⟨hf.le, le_refl _⟩
    · rw [flt_iff hsde h.minSd, not_lt] at hf
      exact ⟨le_refl _, hf⟩
  -- the new value is at least as good as the new entry and as the old value
  have hnew : ∀ old, HMap.find e.entry.id s.coalesced = some old →
      e.rank ≤ (betterOf e old).rank ∧ old.rank ≤ (betterOf e old).rank := by
    intro old hold
    have hod := (h.from_done _ (HMap.mem_of_find hold)).1
    have hrel : e.entry.relev ≤ old.entry.relev :=
      (List.pairwise_append.1 hok.sorted).2.2 old hod e List.mem_cons_self
    have hsd2 := hok.sd old (hdone old hod)
    unfold betterOf
    split_ifs with hb
    · rw [Bool.and_eq_true, flt_iff hsd2 hsde] at hb
      have hle : old.entry.relev ≤ e.entry.relev := by
        have := hb.2
        unfold F64.fle at this
        exact (of_decide_eq_true this).2.2
      refine ⟨le_refl _, ?_⟩
      rw [rank_le_iff]
      exact Or.inr ⟨le_antisymm hle hrel, hb.1.le⟩
    · refine ⟨?_, le_refl _⟩
      rw [rank_le_iff]
      rcases lt_or_eq_of_le hrel with hlt | heq
      · exact Or.inl hlt
      · refine Or.inr ⟨heq, ?_⟩
        by_contra hlt
        rw [not_le] at hlt
        refine hb ?_
        rw [Bool.and_eq_true, flt_iff hsd2 hsde,
          fle_iff (isFin_ne_nan (hok.relev old (hdone old hod)).1)
            (isFin_ne_nan (hok.relev e hmem).1)]
        exact ⟨hlt, heq.symm.le⟩
  have hkeep : Kept (s.record e) e := by
    unfold Kept
    rw [hfind, if_pos rfl]
    refine ⟨_, rfl, ?_⟩
    cases hf : HMap.find e.entry.id s.coalesced with
    | none =>
      rw [Option.getD_none]
      rcases betterOf_cases e e with h' | h' <;> rw [h']
    | some old =>
      rw [Option.getD_some]
      exact (hnew old hf).1
  have hold : ∀ a, Kept s a → Kept (s.record e) a := by
    rintro a ⟨v, hv, hvr⟩
    unfold Kept
    rw [hfind]
    by_cases hk : a.entry.id = e.entry.id
    · rw [if_pos hk]
      rw [hk] at hv
      refine ⟨_, rfl, ?_⟩
      rw [hv, Option.getD_some]
      exact hvr.trans (hnew v hv).2
    · rw [if_neg hk]
      exact ⟨v, hv, hvr⟩
  have hfrom : ∀ p ∈ (s.record e).coalesced, p.2 ∈ done ++ [e] ∧ p.2.entry.id = p.1 := by
    refine HMap.forall_upsert (P := fun k (v : CoalesceEntry) => v ∈ done ++ [e] ∧ v.entry.id = k)
      (fun p hp => ⟨List.mem_append_left _ (h.from_done p hp).1, (h.from_done p hp).2⟩)
      ⟨by simp, rfl⟩ ?_
    intro v hv
    rcases betterOf_cases e v with h' | h' <;> rw [h']
    · exact ⟨by simp, rfl⟩
    · exact hv
  refine ⟨?_, Or.inr ⟨e, by simp, rfl, rfl, rfl, hkeep⟩, hfrom, ?_, ?_, ?_, ?_, ?_⟩
  · have hm : (s.record e).maxRelev =
        if F64.flt s.maxRelev e.entry.relev then e.entry.relev else s.maxRelev := rfl
    rw [hm]
    split_ifs
    · exact Or.inr ⟨e, by simp, rfl⟩
    · rcases h.maxRelev with h' | ⟨a, ha, h'⟩
      · exact Or.inl h'
      · exact Or.inr ⟨a, List.mem_append_left _ ha, h'⟩
  · intro p hp
    show e.entry.relev ≤ _
    rcases List.mem_append.1 (hfrom p hp).1 with hd | hd
    · exact (List.pairwise_append.1 hok.sorted).2.2 _ hd e List.mem_cons_self
    · rw [List.mem_singleton] at hd
      rw [hd]
  · refine HMap.forall_upsert (P := fun _ (v : CoalesceEntry) => (s.record e).minSd ≤ v.scoredist)
      (fun p hp => hminle.1.trans (h.sd p hp)) hminle.2 ?_
    intro v hv
    rcases betterOf_cases e v with h' | h' <;> rw [h']
    · exact hminle.2
    · exact hv
  · rw [hmin]
    split_ifs
    · exact hsde
    · exact h.minSd
  · have := h.count
    have hc : (s.record e).count = if s.prevId ≠ e.entry.id then s.count + 1 else s.count := rfl
    have hp : (s.record e).prevId = e.entry.id := rfl
    rw [hc, hp, List.map_append, List.map_singleton, idChanges_append, getLastD_append_singleton]
    generalize (done.map (·.entry.id)).getLastD 0 = d at this ⊢
    split_ifs at this ⊢ <;> omega
  · intro a ha
    rcases List.mem_append.1 ha with ha | ha
    · rcases h.best a ha with hk | ho
      · exact Or.inl (hold a hk)
      · refine Or.inr ⟨?_, ho.2.1.trans (hmany ho.1).2, ?_⟩
        · have hc : (s.record e).count = if s.prevId ≠ e.entry.id then s.count + 1 else s.count := rfl
          have := ho.1
          rw [hc]
          split_ifs <;> omega
        · rw [hmin, if_neg]
          · exact ho.2.2
          · rw [flt_iff hsde h.minSd, not_lt]
            exact (hmany ho.1).1
    · rw [List.mem_singleton] at ha
      rw [ha]
      exact Or.inl hkeep

/-- What is claimed at the end about an entry. -/
def Settled (noProx : Bool) (all : List CoalesceEntry) (s : SingleState) (e : CoalesceEntry) : Prop :=
  Kept s e ∨ (80 < idChanges 0 (all.map (·.entry.id)) ∧ s.coalesced ≠ [] ∧
    ∀ p ∈ s.coalesced, e.rank ≤ p.2.rank ∧ (noProx = false → e.rank < p.2.rank))

theorem FullInv.nonempty {done : List CoalesceEntry} {s : SingleState} (h : FullInv done s)
    (hc : 80 < s.count) : s.coalesced ≠ [] := by
  rcases h.prev with ⟨-, -, -, h0⟩ | ⟨e, -, -, -, -, v, hv, -⟩
  · omega
  · exact List.ne_nil_of_mem (HMap.mem_of_find hv)

theorem FullInv.settled {done rest : List CoalesceEntry} {s : SingleState} (h : FullInv done s)
    (noProx : Bool) {e : CoalesceEntry} (he : e ∈ done) : Settled noProx (done ++ rest) s e := by
  rcases h.best e he with hk | ho
  · exact Or.inl hk
  · refine Or.inr ⟨?_, h.nonempty ho.1, fun p hp => ⟨(ho.lt h p hp).le, fun _ => ho.lt h p hp⟩⟩
    rw [List.map_append]
    refine lt_of_lt_of_le ?_ (idChanges_le_append _ _ _)
    exact lt_of_lt_of_le ho.1 (le_trans (Nat.le_add_right _ _) h.count)

theorem too_far {es done : List CoalesceEntry} {g e : CoalesceEntry}
    (hok : LoopOk (done ++ g :: es)) {s : SingleState}
    (hmax : s.maxRelev = 0 ∨ ∃ e ∈ done, s.maxRelev = e.entry.relev)
    (hstop : F64.fle (lit 0.25) (s.maxRelev - g.entry.relev) = true) (her : e ∈ g :: es)
    (hclose : CloseTo (done ++ g :: es) e) : False := by
  have he : e ∈ done ++ g :: es := List.mem_append_right _ her
  have hfe := (hok.relev e he).1
  have hfg := (hok.relev g (by simp)).1
  have hrel : e.entry.relev ≤ g.entry.relev := by
    rcases List.mem_cons.1 her with rfl | her
    · exact le_refl _
    · exact (List.pairwise_cons.1 (List.pairwise_append.1 hok.sorted).2.1).1 e her
  have hmf : s.maxRelev.IsFin := by
    rcases hmax with h | ⟨a, ha, h⟩
    · rw [h]; trivial
    · rw [h]; exact (hok.relev a (List.mem_append_left _ ha)).1
  have h1 : s.maxRelev - g.entry.relev ≤ s.maxRelev - e.entry.relev :=
    F64.sub_mono hmf hfg hmf hfe (le_refl _) hrel
  rw [fle_iff quarter_ne_nan (sub_ne_nan hmf hfg)] at hstop
  have h2 := hstop.trans h1
  rcases hmax with h0 | ⟨a, ha, h0⟩
  · rw [h0] at h2
    have := flt_zero_sub hfe (hok.relev e he).2
    have h3 : F64.fle (lit 0.25) (0 - e.entry.relev) = true :=
      (fle_iff quarter_ne_nan (sub_ne_nan (a := 0) trivial hfe)).2 h2
    rw [h3] at this
    cases this
  · have := hclose a (List.mem_append_left _ ha)
    rw [h0] at h2
    have hfa := (hok.relev a (List.mem_append_left _ ha)).1
    rw [flt_iff (sub_ne_nan hfa hfe) quarter_ne_nan] at this
    exact absurd this (not_lt.2 h2)

/-- The loop, whatever the number of features: every entry less than 0.25 below the best is
represented by an entry of its feature at least as good, or the feature id changes more than 80
times and everything collected (something is) is at least as good (with a proximity point: better). -/
theorem singleLoop_full {mk : MatchEntry → Option CoalesceEntry} {noProx : Bool}
    {f : MatchEntry → CoalesceEntry} (hmk : ∀ g e, mk g = some e → e = f g)
    {done : List CoalesceEntry} {grids : List MatchEntry}
    (hok : LoopOk (done ++ grids.map f))
    (hsd : noProx = true → (done ++ grids.map f).Pairwise fun a b => b.rank ≤ a.rank)
    {s s' : SingleState} (hinv : FullInv done s) (h : singleLoop mk noProx s grids = some s') :
    (∀ p ∈ s'.coalesced, p.2 ∈ done ++ grids.map f ∧ p.2.entry.id = p.1) ∧
    ∀ e ∈ done ++ grids.map f, CloseTo (done ++ grids.map f) e →
      Settled noProx (done ++ grids.map f) s' e := by
  induction grids generalizing done s with
  | nil =>
    unfold singleLoop at h
    cases h
    refine ⟨fun p hp => ⟨List.mem_append_left _ (hinv.from_done p hp).1,
      (hinv.from_done p hp).2⟩, fun e he _ => ?_⟩
    rw [List.map_nil, List.append_nil] at he
    exact hinv.settled _ he
  | cons g t ih =>
    unfold singleLoop at h
    cases hg : mk g with
    | none => rw [hg] at h; simp at h
    | some e =>
      have he := hmk g e hg
      subst he
      rw [hg] at h
      simp only [Option.bind_eq_bind, Option.bind_some] at h
      rw [List.map_cons] at hok hsd ⊢
      have hsplit : done ++ f g :: t.map f = (done ++ [f g]) ++ t.map f := by simp
      have hmem : f g ∈ done ++ f g :: t.map f := by simp
      have hbelow : ∀ a ∈ f g :: t.map f, a.entry.relev ≤ (f g).entry.relev := by
        intro a ha
        rcases List.mem_cons.1 ha with rfl | ha
        · exact le_refl _
        · exact (List.pairwise_cons.1 (List.pairwise_append.1 hok.sorted).2.1).1 a ha
      have hprevfin : ∀ n, n < s.count → s.prevRelev ≠ .nan := by
        intro n hn
        rcases hinv.prev with ⟨-, -, -, hc⟩ | ⟨b, hb, -, -, hr, -⟩
        · omega
        · rw [hr]; exact isFin_ne_nan (hok.relev b (List.mem_append_left _ hb)).1
      have hmax80 : 2 * maxContexts = 80 := rfl
      by_cases c1 : s.prevId = (f g).entry.id ∧ F64.fle (f g).scoredist s.prevSd = true
      · -- the same feature as before, not better
        have hmv : singleMove noProx s (f g) = .skip := by
          unfold singleMove
          rw [if_pos c1]
        rw [hmv] at h
        have hle : (f g).scoredist ≤ s.prevSd := by
          have := c1.2
          unfold F64.fle at this
          exact (of_decide_eq_true this).2.2
        have hinv' : FullInv (done ++ [f g]) s := by
          rcases hinv.prev with ⟨rfl, h0, h1, -⟩ | ⟨b, hb, hid, hs, -, v, hv, hvr⟩
          · exfalso
            rw [h0] at c1
            rw [h1] at hle
            rcases hok.zero (f g) rfl with h2 | h2
            · exact h2 c1.1.symm
            · exact absurd h2 (not_lt.2 hle)
          · refine full_skip hinv (List.ne_nil_of_mem hb) (Or.inl ⟨v, ?_, le_trans ?_ hvr⟩)
            · rw [← c1.1, hid]; exact hv
            · rw [rank_le_iff]
              have hrel : (f g).entry.relev ≤ b.entry.relev :=
                (List.pairwise_append.1 hok.sorted).2.2 b hb _ List.mem_cons_self
              rcases lt_or_eq_of_le hrel with hlt | heq
              · exact Or.inl hlt
              · exact Or.inr ⟨heq, by rw [← hs]; exact hle⟩
        rw [hsplit] at hok hsd ⊢
        exact ih hok hsd hinv' h
      by_cases c2 : 2 * maxContexts < s.count ∧ F64.flt (f g).scoredist s.minSd = true
      · -- worse than everything collected
        have hmv : singleMove noProx s (f g) = .skip := by
          unfold singleMove
          rw [if_neg c1, if_pos c2]
        rw [hmv] at h
        have hinv' : FullInv (done ++ [f g]) s := by
          rcases hinv.prev with ⟨-, -, -, hc⟩ | ⟨b, hb, -, -, hr, -⟩
          · omega
          · refine full_skip hinv (List.ne_nil_of_mem hb) (Or.inr ⟨by omega, ?_, ?_⟩)
            · rw [hr]
              exact (List.pairwise_append.1 hok.sorted).2.2 b hb _ List.mem_cons_self
            · exact (flt_iff (hok.sd _ hmem) hinv.minSd).1 c2.2
        rw [hsplit] at hok hsd ⊢
        exact ih hok hsd hinv' h
      by_cases c3 : 2 * maxContexts < s.count ∧ F64.flt (f g).entry.relev s.prevRelev = true
      · -- a lower relevance
        have hmv : singleMove noProx s (f g) = .stop := by
          unfold singleMove
          rw [if_neg c1, if_neg c2, if_pos c3]
        rw [hmv] at h
        rw [← Option.some.inj h]
        refine ⟨fun p hp => ⟨List.mem_append_left _ (hinv.from_done p hp).1,
          (hinv.from_done p hp).2⟩, ?_⟩
        intro e he _
        rcases List.mem_append.1 he with hed | her
        · exact hinv.settled _ hed
        · have hlt := (flt_iff (isFin_ne_nan (hok.relev _ hmem).1) (hprevfin _ c3.1)).1 c3.2
          have hall : ∀ p ∈ s.coalesced, e.rank < p.2.rank := by
            intro p hp
            unfold CoalesceEntry.rank
            rw [Prod.Lex.toLex_lt_toLex]
            exact Or.inl (lt_of_le_of_lt (hbelow e her) (lt_of_lt_of_le hlt (hinv.relev p hp)))
          refine Or.inr ⟨?_, hinv.nonempty c3.1, fun p hp => ⟨(hall p hp).le, fun _ => hall p hp⟩⟩
          rw [List.map_append]
          refine lt_of_lt_of_le ?_ (idChanges_le_append _ _ _)
          exact lt_of_lt_of_le c3.1 (le_trans (Nat.le_add_right _ _) hinv.count)
      by_cases c4 : F64.fle (lit 0.25) (s.maxRelev - (f g).entry.relev) = true
      · -- too far below the best
        have hmv : singleMove noProx s (f g) = .stop := by
          unfold singleMove
          rw [if_neg c1, if_neg c2, if_neg c3, if_pos c4]
        rw [hmv] at h
        rw [← Option.some.inj h]
        refine ⟨fun p hp => ⟨List.mem_append_left _ (hinv.from_done p hp).1,
          (hinv.from_done p hp).2⟩, ?_⟩
        intro e he hclose
        rcases List.mem_append.1 he with hed | her
        · exact hinv.settled _ hed
        · exact (too_far hok hinv.maxRelev c4 her hclose).elim
      have hmany : 80 < s.count → s.minSd ≤ (f g).scoredist ∧ s.prevRelev ≤ (f g).entry.relev := by
        intro hc
        refine ⟨?_, ?_⟩
        · by_contra hn
          rw [not_le] at hn
          exact c2 ⟨hc, (flt_iff (hok.sd _ hmem) hinv.minSd).2 hn⟩
        · by_contra hn
          rw [not_le] at hn
          exact c3 ⟨hc, (flt_iff (isFin_ne_nan (hok.relev _ hmem).1) (hprevfin _ hc)).2 hn⟩
      have hinv' := full_take hok hinv hmany
      by_cases c5 : noProx = true ∧
          2 * maxContexts < (if s.prevId ≠ (f g).entry.id then s.count + 1 else s.count)
      · -- enough features
        have hmv : singleMove noProx s (f g) = .takeAndStop := by
          unfold singleMove
          rw [if_neg c1, if_neg c2, if_neg c3, if_neg c4, if_pos c5]
        rw [hmv] at h
        rw [← Option.some.inj h]
        rw [hsplit] at hok hsd ⊢
        refine ⟨fun p hp => ⟨List.mem_append_left _ (hinv'.from_done p hp).1,
          (hinv'.from_done p hp).2⟩, ?_⟩
        intro e he _
        rcases List.mem_append.1 he with hed | her
        · exact hinv'.settled _ hed
        · refine Or.inr ⟨?_, hinv'.nonempty c5.2, fun p hp =>
            ⟨?_, fun hf => by rw [c5.1] at hf; cases hf⟩⟩
          · rw [List.map_append]
            refine lt_of_lt_of_le ?_ (idChanges_le_append _ _ _)
            have hc : (s.record (f g)).count =
              if s.prevId ≠ (f g).entry.id then s.count + 1 else s.count := rfl
            refine lt_of_lt_of_le ?_ (le_trans (Nat.le_add_right _ _) hinv'.count)
            rw [hc]
            exact c5.2
          · exact (List.pairwise_append.1 (hsd c5.1)).2.2 _ (hinv'.from_done p hp).1 e her
      · have hmv : singleMove noProx s (f g) = .take := by
          unfold singleMove
          rw [if_neg c1, if_neg c2, if_neg c3, if_neg c4, if_neg c5]
        rw [hmv] at h
        rw [hsplit] at hok hsd ⊢
        exact ih hok hsd hinv' h

end Carmen

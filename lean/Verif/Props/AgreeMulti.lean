import Verif.Props.Nested
import Verif.Props.Exact
import Verif.Props.ResultRanges

/-!
# `coalesce` keeps up with stack-and-coalesce (C84)
-/

namespace Carmen
open Spec

/-! ## Sums of relevances -/

theorem sumRelev_near {l : List F64} (hne : l ≠ [])
    (h : ∀ x ∈ l, ∃ r, x = .fin r ∧ 0 ≤ r ∧ r ≤ 1) (hlen : l.length ≤ 32) :
    ∃ R, sumRelev l = .fin R ∧ |R - (l.map value).sum| ≤ (l.length : ℚ) / 2 ^ 48 ∧
      0 ≤ (l.map value).sum ∧ (l.map value).sum ≤ l.length := by
  induction l using List.reverseRecOn with
  | nil => exact absurd rfl hne
  | append_singleton t a ih =>
    obtain ⟨r, rfl, h0, h1⟩ := h a (by simp)
    rcases List.eq_nil_or_concat' t with rfl | ⟨t', b, rfl⟩
    · refine ⟨r, rfl, ?_, ?_, ?_⟩
      · simp [value]
      · simpa [value] using h0
      · simpa [value] using h1
    · have hne' : t' ++ [b] ≠ [] := by simp
      obtain ⟨R, hR, he, hs0, hs1⟩ := ih hne' (fun x hx => h x (List.mem_append_left _ hx))
        (by rw [List.length_append] at hlen; omega)
      rw [sumRelev_concat hne', hR]
      generalize t' ++ [b] = t at *
      have hlt : (t.length : ℚ) ≤ 31 := by
        have : t.length ≤ 31 := by rw [List.length_append, List.length_singleton] at hlen; omega
        exact_mod_cast this
      have he' := abs_le.1 he
      have hsm : (t.length : ℚ) / 2 ^ 48 ≤ 1 := by
        rw [div_le_one (by norm_num)]
        exact hlt.trans (by norm_num)
      obtain ⟨d, hd, hde⟩ := F64.add_err (a := R) (b := r) (by
        rw [abs_lt]; constructor <;> linarith [he'.1, he'.2])
      have hde' := abs_le.1 hde
      refine ⟨d, hd, ?_, ?_, ?_⟩
      · rw [List.map_append, List.sum_append, List.length_append, List.length_singleton]
        simp only [List.map_cons, List.map_nil, List.sum_cons, List.sum_nil, value, add_zero]
        push_cast
        rw [add_div, abs_le]
        constructor <;> linarith [he'.1, he'.2, hde'.1, hde'.2]
      · rw [List.map_append, List.sum_append]
        simp only [List.map_cons, List.map_nil, List.sum_cons, List.sum_nil, value, add_zero]
        linarith
      · rw [List.map_append, List.sum_append, List.length_append, List.length_singleton]
        simp only [List.map_cons, List.map_nil, List.sum_cons, List.sum_nil, value, add_zero]
        push_cast
        linarith

theorem value_mono {a b : F64} (ha : a.IsFin) (hb : b.IsFin) (h : a ≤ b) : value a ≤ value b := by
  obtain ⟨x, rfl⟩ := ha.exists
  obtain ⟨y, rfl⟩ := hb.exists
  exact F64.fin_le_fin.1 h

/-- Entries for the same masks, each at least as relevant, have at least the same sum. -/
theorem sum_le_entrySum {hs : List Hit} {es : List CoalesceEntry}
    (hp : (es.map (·.mask)).Perm (hs.map (·.q.mask))) (hnd : (hs.map (·.q.mask)).Nodup)
    (hb : ∀ h ∈ hs, ∃ e ∈ es, e.mask = h.q.mask ∧ value h.relev ≤ value e.entry.relev) :
    (hs.map fun h => value h.relev).sum ≤ entrySum es := by
  let r : ℕ → ℚ := fun m => ((hs.find? fun h => h.q.mask == m).map fun h => value h.relev).getD 0
  have hr : ∀ h ∈ hs, r h.q.mask = value h.relev := by
    intro h hh
    show ((hs.find? fun h' => h'.q.mask == h.q.mask).map fun h => value h.relev).getD 0 = _
    cases hf : hs.find? fun h' => h'.q.mask == h.q.mask with
    | none =>
      have := List.find?_eq_none.1 hf h hh
      simp at this
    | some h' =>
      have hm : h'.q.mask = h.q.mask := by simpa using List.find?_some hf
      have : h' = h := List.inj_on_of_nodup_map hnd (List.mem_of_find?_eq_some hf) hh hm
      rw [this]
      rfl
  have h1 : (hs.map fun h => value h.relev) = (hs.map (·.q.mask)).map r := by
    rw [List.map_map]
    exact List.map_congr_left fun h hh => (hr h hh).symm
  rw [h1, ← (hp.map r).sum_eq, List.map_map]
  unfold entrySum
  refine List.sum_le_sum fun e he => ?_
  have hmem : e.mask ∈ hs.map (·.q.mask) := hp.mem_iff.1 (List.mem_map_of_mem he)
  obtain ⟨h, hh, hm⟩ := List.mem_map.1 hmem
  obtain ⟨e', he', hem, hev⟩ := hb h hh
  have : e' = e := List.inj_on_of_nodup_map (hp.nodup_iff.2 hnd) he' he (hem.trans hm)
  subst this
  show r e'.mask ≤ _
  rw [← hm, hr h hh]
  exact hev

/-! ## The two implementations -/

theorem madeFrom_same {q : Subquery} {g : MatchEntry} {e e' : CoalesceEntry}
    (h : MadeFrom q g e) (h' : MadeFrom q g e') :
    e'.entry = e.entry ∧ e'.matchesLanguage = e.matchesLanguage ∧ e'.distance = e.distance ∧
      e'.scoredist = e.scoredist ∧ e'.tmpId = e.tmpId ∧ e'.idx = e.idx ∧ e'.mask = e.mask := by
  obtain ⟨a1, a2, a3, a4, a5, a6, a7, a8, a9, a10, a11, a12⟩ := h
  obtain ⟨b1, b2, b3, b4, b5, b6, b7, b8, b9, b10, b11, b12⟩ := h'
  refine ⟨?_, b7.trans a7.symm, b8.trans a8.symm, b9.trans a9.symm, b10.trans a10.symm,
    b11.trans a11.symm, b12.trans a12.symm⟩
  obtain ⟨⟨_, _, _, _, _, _⟩, _⟩ := e
  obtain ⟨⟨_, _, _, _, _, _⟩, _⟩ := e'
  simp only [GridEntry.mk.injEq] at *
  exact ⟨b6.trans a6.symm, b4.trans a4.symm, b2.trans a2.symm, b3.trans a3.symm, b1.trans a1.symm,
    b5.trans a5.symm⟩

theorem chain_pairwise {hs : List Hit} (h : hs.IsChain fun a b => TileContains a.tile b.tile) :
    hs.Pairwise fun a b => TileContains a.tile b.tile := by
  have : IsTrans Hit fun a b => TileContains a.tile b.tile :=
    ⟨fun _ _ _ h1 h2 => TileContains.trans h1 h2⟩
  exact List.isChain_iff_pairwise.1 h

/-- C84: `coalesce`, given the phrase matches of a stack, keeps up with every context that
stack-and-coalesce puts together from hits on it. -/
theorem C84_keeps_up {env : Env} (os : ℕ → IterOrder) {opts : MatchOpts} {pms : List Subquery}
    {hs : List Hit} {c : Context} (hc : ContextOf env opts pms hs c) (hlen : 2 ≤ hs.length)
    (hkeys : ∀ h ∈ hs, h.q.matchKeys = [h.kg] ∧ h.kg.nearbyOnly = false)
    (hok : StackOk (hs.map Hit.q)) (hidx : (hs.map (·.q.idx)).Nodup)
    (horder : hs.Pairwise fun a b => Before a.q b.q)
    (hz : env.chk = true ∨ ∀ h ∈ hs, ∀ h' ∈ hs, h.q.store.zoom < h'.q.store.zoom + 16)
    {out : List Context} (hout : coalesce env os (hs.map Hit.q) opts = some out) :
    KeepsUp env opts (hs.map Hit.q) c out := by
  have hnl : ¬ Lone pms hs := by
    rintro ⟨h, rfl, -⟩
    simp at hlen
  have hamong : ∀ h ∈ hs, Among env opts h.q h.grid := by
    intro h hh
    obtain ⟨-, o, before, after, ho, hq, hb, -⟩ := hc.first hnl h hh
    obtain ⟨hk, hn⟩ := hkeys h hh
    refine ⟨o, h.kg, before ++ h.grid :: after, ?_, by rw [hk]; rfl, hq, ?_⟩
    · unfold lookupOpts at ho
      rw [hn] at ho
      simpa using ho
    · rw [List.take_append]
      refine List.mem_append_right _ ?_
      have : ∃ n, 100000 - before.length = n + 1 := ⟨100000 - before.length - 1, by omega⟩
      obtain ⟨n, hn⟩ := this
      rw [hn, List.take_succ_cons]
      exact List.mem_cons_self
  obtain ⟨init, last, rfl⟩ := (List.eq_nil_or_concat' hs).resolve_left hc.ne
  let f : Hit → Subquery × MatchEntry := fun h => (h.q, h.grid)
  have hnest : NestedGrids env opts ((init ++ [last]).map Hit.q)
      (init.map f ++ [(last.q, last.grid)]) := by
    have he : init.map f ++ [(last.q, last.grid)] = (init ++ [last]).map f := by simp [f]
    rw [he]
    refine ⟨?_, List.pairwise_map.2 horder, List.pairwise_map.2 (chain_pairwise hc.tiles), ?_⟩
    · rw [List.map_map]
      exact List.Perm.refl _
    · intro p hp
      obtain ⟨h, hh, rfl⟩ := List.mem_map.1 hp
      exact hamong h hh
  obtain ⟨c', h1, h2, h3, h4, h5, h6, h7⟩ := C57_nested_found env os ((init ++ [last]).map Hit.q)
    opts (by rw [List.length_map]; exact hlen) hok (by rw [List.map_map]; exact hidx) (by
      refine hz.imp_right fun hz => ?_
      intro q hq q' hq'
      obtain ⟨h, hh, rfl⟩ := List.mem_map.1 hq
      obtain ⟨h', hh', rfl⟩ := List.mem_map.1 hq'
      exact hz h hh h' hh') (init.map f) last.q last.grid hnest out hout
  have hmadeLen : c.entries.length = (init ++ [last]).length := by
    rw [← hc.entries.length_eq, List.length_reverse]
  have hbest : ∀ h ∈ init ++ [last], ∃ e ∈ c'.entries, e.mask = h.q.mask ∧
      h.relev ≤ e.entry.relev := by
    intro h hh
    obtain ⟨e, he⟩ := h5 (f h) (by
      have he : init.map f ++ [(last.q, last.grid)] = (init ++ [last]).map f := by simp [f]
      rw [he]
      exact List.mem_map_of_mem hh)
    exact ⟨e, he⟩
  -- the relevances are numbers from 0 to 1
  have hval : ∀ h ∈ init ++ [last], ∃ r, h.relev = .fin r ∧ 0 ≤ r ∧ r ≤ 1 := by
    intro h hh
    obtain ⟨r, hr, h0, h1, -⟩ := (toEntry_ok hok (List.mem_map_of_mem hh)
      (Among.answers (hamong h hh))).relev
    exact ⟨r, hr, h0, h1⟩
  have hmasks : ((init ++ [last]).map (·.q.mask)).Nodup := by
    refine List.Nodup.map_on (fun a ha b hb hab => ?_) (List.Nodup.of_map _ hidx)
    exact List.inj_on_of_nodup_map hidx ha hb
      (congrArg Subquery.idx (mask_inj hok (List.mem_map_of_mem ha) (List.mem_map_of_mem hb) hab))
  have hperm : (c'.entries.map (·.mask)).Perm ((init ++ [last]).map (·.q.mask)) := by
    refine ((List.subperm_of_subset hmasks ?_).perm_of_length_le ?_).symm
    · intro m hm
      obtain ⟨h, hh, rfl⟩ := List.mem_map.1 hm
      obtain ⟨e, he, hem, -⟩ := hbest h hh
      rw [← hem]
      exact List.mem_map_of_mem he
    · rw [List.length_map, List.length_map, h3, List.length_map]
  have hfins : ∀ e ∈ c'.entries, e.entry.relev.IsFin := by
    obtain ⟨q, g, rest, hf, hsrc, -⟩ := h4
    intro e he
    obtain ⟨p, hp, hm⟩ := forall₂_mem_right hf he
    obtain ⟨hps, hpa⟩ := hsrc p hp
    obtain ⟨r, hr, -⟩ := (toEntry_ok hok hps hpa).relev
    rw [hm.2.2.2.2.2.1]
    have hr : p.2.entry.relev * p.1.weight = .fin r := hr
    rw [hr]
    trivial
  have hsum := sum_le_entrySum hperm hmasks (fun h hh => by
    obtain ⟨e, he, hem, her⟩ := hbest h hh
    refine ⟨e, he, hem, value_mono ?_ (hfins e he) her⟩
    obtain ⟨r, hr, -⟩ := hval h hh
    rw [hr]
    trivial)
  have h32 : (init ++ [last]).length ≤ 32 := by
    have := length_le_of_disjoint (l := ((init ++ [last]).map Hit.q).map (·.mask)) (by
      intro m hm
      obtain ⟨q, hq, rfl⟩ := List.mem_map.1 hm
      exact hok.covers q hq) (List.pairwise_map.2 hok.disjoint)
    simpa using this
  obtain ⟨R, hR, hRe, hs0, hs1⟩ := sumRelev_near (l := (init ++ [last]).map Hit.relev) (by simp) (by
    intro x hx
    obtain ⟨h, hh, rfl⟩ := List.mem_map.1 hx
    exact hval h hh) (by rw [List.length_map]; exact h32)
  rw [List.map_map] at hRe hs0 hs1
  rw [List.length_map] at hRe hs1
  have hcast : ((init ++ [last]).length : ℚ) ≤ 32 := by exact_mod_cast h32
  have hS : ((init ++ [last]).map (value ∘ Hit.relev)).sum =
      ((init ++ [last]).map fun h => value h.relev).sum := rfl
  rw [hS] at hRe hs0 hs1
  generalize ((init ++ [last]).map fun h => value h.relev).sum = S at *
  have herr : ((init ++ [last]).length : ℚ) / 2 ^ 48 ≤ 1 / 2 ^ 43 := by
    rw [div_le_div_iff₀ (by norm_num) (by norm_num)]
    nlinarith
  have hRe' := abs_le.1 hRe
  obtain ⟨hfin', hnear⟩ := h6
  have hnear' := abs_le.1 hnear
  -- the relevance of the context put together from the hits
  have hcle : value c.relev ≤ R + 1 / 2 ^ 48 ∧
      (LosesPoints pms (init ++ [last]) → value c.relev ≤ R - 1 / 100 + 1 / 2 ^ 45) := by
    have hlit : lit 0.01 = .fin (value (lit 0.01)) := by decide +kernel
    have hlv : |value (lit 0.01) - 1 / 100| ≤ 1 / 2 ^ 50 := by decide +kernel
    have hlv' := abs_le.1 hlv
    by_cases hl : LosesPoints pms (init ++ [last])
    · have hcr := hc.penalty hl
      rw [hR, hlit] at hcr
      obtain ⟨d, hd, hde⟩ := F64.sub_err (a := R) (b := value (lit 0.01)) (by
        rw [abs_lt]
        have : (1 : ℚ) / 2 ^ 43 ≤ 1 := by norm_num
        have : (1 : ℚ) / 2 ^ 50 ≤ 1 := by norm_num
        constructor <;> linarith [hRe'.1, hRe'.2, hlv'.1, hlv'.2])
      rw [hd] at hcr
      have hde' := abs_le.1 hde
      rw [hcr]
      simp only [value]
      have : (1 : ℚ) / 2 ^ 50 ≤ 1 / 100 := by norm_num
      have : (1 : ℚ) / 2 ^ 48 + 1 / 2 ^ 50 ≤ 1 / 2 ^ 45 := by norm_num
      exact ⟨by linarith [hde'.2, hlv'.1], fun _ => by linarith [hde'.2, hlv'.1]⟩
    · rw [hc.plain hl, hR]
      simp only [value]
      have : (0 : ℚ) ≤ 1 / 2 ^ 48 := by norm_num
      exact ⟨by linarith, fun h => absurd h hl⟩
  have h3938 : (1 : ℚ) / 2 ^ 39 + 1 / 2 ^ 43 + 1 / 2 ^ 45 + 1 / 2 ^ 48 ≤ 1 / 2 ^ 38 := by norm_num
  have hfirst : MadeFrom last.q last.grid c.first := by
    have hf := hc.entries
    rw [List.reverse_append, List.reverse_singleton, List.singleton_append] at hf
    cases hce : c.entries with
    | nil => rw [hce] at hf; cases hf
    | cons e t =>
      rw [hce] at hf
      cases hf with
      | cons he _ =>
        have : c.first = e := by simp [Context.first, hce]
        rw [this]
        exact he.1
  refine ⟨c', madeFrom_same hfirst h1, ?_, ?_, ?_, ?_, ?_, h4, h7⟩
  · rw [h2, hc.mask, List.map_map]
    rfl
  · rw [h3, List.length_map, hmadeLen]
  · intro e he
    obtain ⟨h, hh, hm, -⟩ := forall₂_mem_right hc.entries he
    rw [List.mem_reverse] at hh
    obtain ⟨e', he', hem, her⟩ := hbest h hh
    refine ⟨e', he', hem.trans hm.2.2.2.2.2.2.2.2.2.2.2.symm, ?_⟩
    rw [hm.2.2.2.2.2.1]
    exact her
  · have : (0 : ℚ) ≤ 1 / 2 ^ 45 := by norm_num
    linarith [hcle.1, hRe'.2, hnear'.1]
  · intro h2len
    rw [List.length_map] at h2len
    obtain ⟨upper, rfl⟩ : ∃ u, init = [u] := by
      rw [List.length_append, List.length_singleton] at h2len
      exact List.length_eq_one_iff.1 (by omega)
    -- the penalty is the same
    have hpen : LosesPoints pms ([upper] ++ [last]) ∨ penalty c'.entries = 0 := by
      rw [List.length_map] at h3
      obtain ⟨e0, e1, hes⟩ : ∃ e0 e1, c'.entries = [e0, e1] := by
        match hce : c'.entries, (h3.trans h2len) with
        | [e0, e1], _ => exact ⟨e0, e1, rfl⟩
      have he0 : e0.mask = last.q.mask := by
        have : c'.first = e0 := by simp [Context.first, hes]
        rw [← this]
        exact h1.2.2.2.2.2.2.2.2.2.2.2
      have he1 : e1.mask = upper.q.mask := by
        rw [hes] at hperm
        have hp : [e0.mask, e1.mask].Perm [upper.q.mask, last.q.mask] := by simpa using hperm
        rw [he0] at hp
        have := (hp.trans (List.Perm.swap _ _ _)).cons_inv
        simpa using this
      by_cases hlt : upper.q.mask < last.q.mask
      · exact Or.inl (Or.inr ⟨[], upper, last, rfl, hlt⟩)
      · right
        rw [hes]
        simp only [penalty, he0, he1]
        rw [if_neg hlt]
    rcases hpen with hl | hp
    · have hp : penalty c'.entries ≤ 1 / 100 := by
        unfold penalty
        split
        · split_ifs <;> norm_num
        · norm_num
      linarith [hcle.2 hl, hRe'.2, hnear'.1]
    · rw [hp] at hnear'
      have : (0 : ℚ) ≤ 1 / 2 ^ 45 := by norm_num
      linarith [hcle.1, hRe'.2, hnear'.1]

/-- C84, for requests: every context of several entries that stack-and-coalesce returns belongs to a
stack of phrase matches, and `coalesce`, given that stack, keeps up with it. -/
theorem C84_request {env : TreeEnv} {qs : List Subquery} {opts : MatchOpts} {out : List Context}
    (hd : Delivered qs) (hfew : FewGroupStacks 2000 qs) (hz : ZoomsAscend qs)
    (hcovers : ∀ q ∈ qs, q.mask ≠ 0 ∧ q.mask < 2 ^ 32)
    (hweights : ∀ q ∈ qs, q.weight.IsFin ∧ q.weight.Valid ∧ 0 ≤ q.weight ∧ q.weight ≤ 1)
    (hplain : ∀ q ∈ qs, ∀ kg ∈ q.matchKeys, kg.nearbyOnly = false)
    (horder : ∀ a ∈ qs, ∀ b ∈ qs, a.store.typeId < b.store.typeId → Before a b)
    (hout : stackAndCoalesce env qs opts = some out) :
    ∀ c ∈ out, 2 ≤ c.entries.length → ∃ stack, IsStack qs stack ∧
      stack.map (·.mask) = (c.entries.map (·.mask)).reverse ∧
      ∀ os out', coalesce env.toEnv os stack opts = some out' →
        KeepsUp env.toEnv opts stack c out' := by
  intro c hc hlen
  rcases C81_sound hd hfew (Or.inr hz) hout c hc with ⟨hs, hl, hcx⟩ |
    ⟨q, kg, o, grids, all, -, -, -, -, -, e3, hca⟩
  · have hlen' : 2 ≤ hs.length := by
      have := hcx.entries.length_eq
      rw [List.length_reverse] at this
      omega
    have hmem : ∀ h ∈ hs, h.q ∈ qs := fun h hh => hcx.stack.mem _ (List.mem_map_of_mem hh)
    have htypes := List.pairwise_map.1 hcx.stack.types
    refine ⟨hs.map Hit.q, hcx.stack, ?_, ?_⟩
    · have : ∀ (l : List Hit) (es : List CoalesceEntry),
          List.Forall₂ (fun h e => MadeFrom h.q h.grid e ∧ e.phrasematchId = h.kg.id) l es →
          l.map (·.q.mask) = es.map (·.mask) := by
        intro l es h
        induction h with
        | nil => rfl
        | cons h _ ih =>
          rw [List.map_cons, List.map_cons, ih, h.1.2.2.2.2.2.2.2.2.2.2.2]
      rw [← this _ _ hcx.entries, List.map_reverse, List.reverse_reverse, List.map_map]
      rfl
    · intro os out' hout'
      refine C84_keeps_up os hcx hlen' ?_ ?_ ?_ ?_ ?_ hout'
      · intro h hh
        obtain ⟨hk, -⟩ := hcx.first hl h hh
        refine ⟨?_, hplain _ (hmem h hh) _ hk⟩
        have h1 := hd.one _ (hmem h hh)
        obtain ⟨k, hk1⟩ := List.length_eq_one_iff.1 h1
        rw [hk1] at hk ⊢
        rw [List.mem_singleton.1 hk]
      · refine ⟨?_, hcx.stack.masks, ?_⟩
        · intro q hq
          exact hcovers q (hcx.stack.mem q hq)
        · intro q hq
          exact hweights q (hcx.stack.mem q hq)
      · refine List.pairwise_map.2 (htypes.imp_of_mem ?_)
        intro a b ha hb hab he
        rw [(hd.index _ (hmem a ha) _ (hmem b hb) he).1] at hab
        exact lt_irrefl _ hab
      · exact htypes.imp_of_mem fun ha hb hab => horder _ (hmem _ ha) _ (hmem _ hb) hab
      · right
        have hs : Std.Symm fun a b : Hit => a.q.store.zoom < b.q.store.zoom + 16 ∧
            b.q.store.zoom < a.q.store.zoom + 16 := ⟨fun _ _ h => ⟨h.2, h.1⟩⟩
        intro a ha b hb
        by_cases hab : a = b
        · subst hab
          omega
        · exact ((htypes.imp_of_mem (S := fun a b : Hit => a.q.store.zoom < b.q.store.zoom + 16 ∧
            b.q.store.zoom < a.q.store.zoom + 16) fun ha hb hab => by
              obtain ⟨h1, h2⟩ := hz _ (hmem _ ha) _ (hmem _ hb) hab
              exact ⟨by omega, by omega⟩).forall ha hb hab).1
  · obtain ⟨g, _, rfl⟩ := treeSingle_made e3 c hca
    simp [singleContext] at hlen

/-! ## A case -/

/-- A street in a region: both implementations put the context together, with the same relevance. -/
example : ∃ out c out', stackAndCoalesce (listTreeEnv false) [regionTreeMatch, streetTreeMatch]
      plainOpts = some out ∧ c ∈ out ∧ c.entries.map (·.mask) = [2, 1] ∧
    coalesce (listTreeEnv false).toEnv (fun _ => .id) [regionTreeMatch, streetTreeMatch] plainOpts =
      some out' ∧ out'.map (·.relev) = [c.relev] ∧
    KeepsUp (listTreeEnv false).toEnv plainOpts [regionTreeMatch, streetTreeMatch] c out' := by
  have h1 : ((stackAndCoalesce (listTreeEnv false) [regionTreeMatch, streetTreeMatch]
      plainOpts).bind fun out => out.head?.map fun c => (c.relev, c.entries.map (·.mask))) =
        (coalesce (listTreeEnv false).toEnv (fun _ => .id) [regionTreeMatch, streetTreeMatch]
          plainOpts).bind fun out => out.head?.map fun c => (c.relev, [2, 1]) := by decide +kernel
  have h2 : ((coalesce (listTreeEnv false).toEnv (fun _ => .id) [regionTreeMatch, streetTreeMatch]
      plainOpts).map List.length) = some 1 := by decide +kernel
  obtain ⟨out', ho', hl⟩ := Option.map_eq_some_iff.1 h2
  obtain ⟨d, rfl⟩ := List.length_eq_one_iff.1 hl
  rw [ho', Option.bind_some, List.head?_cons, Option.map_some, Option.bind_eq_some_iff] at h1
  obtain ⟨out, ho, h1⟩ := h1
  obtain ⟨c, hc, h1⟩ := Option.map_eq_some_iff.1 h1
  rw [Prod.mk.injEq] at h1
  have hmem := List.mem_of_head? hc
  have hd : Delivered [regionTreeMatch, streetTreeMatch] :=
    ⟨by decide +kernel, by decide +kernel, by decide +kernel⟩
  have hfew : FewGroupStacks 2000 [regionTreeMatch, streetTreeMatch] :=
    few_of_small (by decide +kernel)
  have hz : ZoomsAscend [regionTreeMatch, streetTreeMatch] := by
    unfold ZoomsAscend
    decide +kernel
  obtain ⟨stack, hst, hm, hk⟩ := C84_request hd hfew hz (by decide +kernel) (by decide +kernel)
    (by decide +kernel) (by unfold Before; decide +kernel) ho c hmem
    (by have := congrArg List.length h1.2; simp at this; omega)
  have hs : stack = [regionTreeMatch, streetTreeMatch] := by
    rw [h1.2] at hm
    obtain ⟨a, b, rfl⟩ : ∃ a b, stack = [a, b] := by
      have := congrArg List.length hm
      simp only [List.length_map, List.length_reverse, List.length_cons, List.length_nil] at this
      exact List.length_eq_two.1 this
    · have ha := hst.mem a (by simp)
      have hb := hst.mem b (by simp)
      have e1 : regionTreeMatch.mask = 1 := by decide +kernel
      have e2 : streetTreeMatch.mask = 2 := by decide +kernel
      simp only [List.map_cons, List.map_nil, List.reverse_cons, List.reverse_nil, List.nil_append,
        List.cons_append, List.cons.injEq, and_true] at hm
      simp only [List.mem_cons, List.not_mem_nil, or_false] at ha hb
      rcases ha with rfl | rfl
      · rcases hb with rfl | rfl
        · omega
        · rfl
      · omega
  subst hs
  exact ⟨out, c, [d], ho, hmem, h1.2, ho', by simp [h1.1], hk _ _ ho'⟩

end Carmen

import Verif.Lemmas.CoalesceLoop
import Verif.Props.Coalesce

/-!
# C57, C58: what `coalesce` finds for several phrase matches, and with which relevance
-/

namespace Carmen
open Format Spec Builder

/-! ## The order of the stack -/

theorem before_of_key {a b : Subquery} (h : a.stackKey ≤ b.stackKey) (hne : ¬ Before a b) :
    b.stackKey ≤ a.stackKey := by
  unfold Subquery.stackKey at h ⊢
  rw [Prod.Lex.toLex_le_toLex] at h ⊢
  unfold Before at hne
  simp only at h ⊢
  omega

theorem before_not_le {a b : Subquery} (h : Before a b) : ¬ b.stackKey ≤ a.stackKey := by
  unfold Subquery.stackKey
  rw [Prod.Lex.toLex_le_toLex]
  unfold Before at h
  simp only
  omega

/-- The sorted stack ends with the last phrase match. -/
theorem sorted_last {stack : List Subquery} {l : Subquery} (h : IsLast stack l) :
    ∃ pre, (stack.insertionSort fun a b => a.stackKey ≤ b.stackKey) = pre ++ [l] := by
  have hperm := List.perm_insertionSort (fun a b : Subquery => a.stackKey ≤ b.stackKey) stack
  have hs := sorted_stack stack
  generalize (stack.insertionSort fun a b => a.stackKey ≤ b.stackKey) = S at hperm hs
  have hl : l ∈ S := hperm.mem_iff.2 h.1
  obtain ⟨pre, x, rfl⟩ : ∃ pre x, S = pre ++ [x] := by
    rcases List.eq_nil_or_concat S with rfl | ⟨p, x, rfl⟩
    · cases hl
    · exact ⟨p, x, by simp⟩
  by_cases hx : x = l
  · exact ⟨pre, by rw [hx]⟩
  · exfalso
    have hb := h.2 x (hperm.mem_iff.1 (by simp)) hx
    have hlp : l ∈ pre := by
      rcases List.mem_append.1 hl with h | h
      · exact h
      · exact absurd (List.mem_singleton.1 h).symm hx
    exact before_not_le hb ((List.pairwise_append.1 hs).2.2 l hlp x (by simp))

theorem Spec.StackOk.perm {s s' : List Subquery} (h : StackOk s) (hp : s'.Perm s) : StackOk s' := by
  refine ⟨fun q hq => h.covers q (hp.mem_iff.1 hq), ?_,
    fun q hq => h.weights q (hp.mem_iff.1 hq)⟩
  exact (hp.pairwise_iff fun hab => by rw [Nat.and_comm]; exact hab).2 h.disjoint

theorem PreCtx.consistent {env : Env} {opts : MatchOpts} {S stack done : List Subquery} {z : Zxy}
    {c : Context} (h : PreCtx env opts S done z c) (hp : S.Perm stack) :
    ConsistentContext env opts stack c ∧ ConsistentContext env opts stack c.penalize := by
  obtain ⟨q, g, rest, h1, h2, h3, h4, h5⟩ := consistent_of_builtAt h.built
  have h2' : ∀ p ∈ (q, g) :: rest, p.1 ∈ stack ∧ Answers env opts p.1 p.2 := fun p hp' =>
    ⟨hp.mem_iff.1 (h2 p hp').1, (h2 p hp').2⟩
  refine ⟨⟨q, g, rest, h1, h2', h3, h4, h5⟩, q, g, rest, ?_, h2', h3, ?_, h5⟩
  · rw [penalize_entries]; exact h1
  · rw [penalize_mask]; exact h4

/-! ## C58 -/

theorem mem_allContexts {env : Env} {os : ℕ → IterOrder} {stack : List Subquery}
    {opts : MatchOpts} {out : List Context} (h : coalesce env os stack opts = some out) :
    ∃ cs, allContexts env os stack opts = some cs ∧ (∀ c ∈ out, c ∈ cs) ∧
      out = pickContexts (cs.headD ⟨0, 0, []⟩).relev 0 [] cs := by
  unfold coalesce at h
  rw [Option.bind_eq_bind, Option.bind_eq_some_iff] at h
  obtain ⟨cs, hcs, h⟩ := h
  refine ⟨cs, hcs, ?_, ?_⟩
  · cases cs with
    | nil => cases h; simp
    | cons a t =>
      simp only [Option.some.injEq] at h
      subst h
      exact fun c hc => (pickContexts_sublist _ _ _ _).subset hc
  · cases cs with
    | nil => cases h; rfl
    | cons a t => exact (Option.some.inj h).symm

/-- C58. The relevance of every context `coalesce` returns for several phrase matches is the sum of
the relevances of its entries, up to rounding; a context whose first entry is from the phrase match
that comes last by zoom and index number loses 0.01 if it has no second entry or one with a smaller
mask. -/
theorem C58_relevance_is_sum (env : Env) (os : ℕ → IterOrder) (stack : List Subquery)
    (opts : MatchOpts) (hlen : 2 ≤ stack.length) (hok : StackOk stack)
    (hz : env.chk = true ∨ ∀ q ∈ stack, ∀ q' ∈ stack, q.store.zoom < q'.store.zoom + 16)
    (l : Subquery) (hl : IsLast stack l) (out : List Context)
    (h : coalesce env os stack opts = some out) :
    ∀ c ∈ out, RelevIs c (if c.first.mask = l.mask then penalty c.entries else 0) := by
  obtain ⟨cs, hcs, hsub, -⟩ := mem_allContexts h
  unfold allContexts at hcs
  rw [if_neg (by omega)] at hcs
  have hperm := List.perm_insertionSort (fun a b : Subquery => a.stackKey ≤ b.stackKey) stack
  obtain ⟨pre, hpre⟩ := sorted_last hl
  rw [hpre] at hperm
  have hok' := hok.perm hperm
  have hst : MultiOk env (pre ++ [l]) := ⟨hok', hz.imp_right fun hz q hq q' hq' =>
    hz q (hperm.mem_iff.1 hq) q' (hperm.mem_iff.1 hq')⟩
  have hall := (coalesceMulti_summary hpre hst hcs).1
  intro c hc
  rcases hall c (hsub c hc) with ⟨z, hp⟩ | ⟨z, c', hp, rfl⟩
  · obtain ⟨q, hq, hm⟩ := hp.first
    rw [if_neg]
    · exact hp.rel.relevIs
    · intro he
      have := (List.pairwise_append.1 hok'.disjoint).2.2 q hq l (by simp)
      rw [← hm, he, Nat.and_self] at this
      exact (hok'.covers l (by simp)).1 this
  · obtain ⟨q, hq, hm⟩ := hp.first
    rw [List.mem_singleton] at hq
    subst hq
    have hf : c'.penalize.first = c'.first :=
      Context.first_of_head (by rw [penalize_entries])
    rw [hf, if_pos hm, penalize_entries]
    exact hp.rel.relevIs_penalize

/-- C58, a single phrase match: the relevance of a context is that of its only entry. -/
theorem C58_single (env : Env) (os : ℕ → IterOrder) (q : Subquery) (opts : MatchOpts)
    (out : List Context) (h : coalesce env os [q] opts = some out) :
    ∀ c ∈ out, ∃ e, c.entries = [e] ∧ c.relev = e.entry.relev ∧ c.mask = q.mask := by
  obtain ⟨cs, hcs, hsub, -⟩ := mem_allContexts h
  have hcs : coalesceSingle env (os 0) q opts = some cs := hcs
  unfold coalesceSingle at hcs
  rw [Option.bind_eq_bind, Option.bind_eq_some_iff] at hcs
  obtain ⟨m, hm, hcs⟩ := hcs
  cases hcs
  intro c hc
  have hc := List.mem_of_mem_take (hsub c hc)
  rw [(List.perm_insertionSort _ _).mem_iff] at hc
  obtain ⟨p, hp, rfl⟩ := List.mem_map.1 hc
  obtain ⟨g, hg⟩ := (singleFeatures_collected hm).made p ((IterOrder.perm _ _).mem_iff.1 hp)
  exact ⟨p.2, rfl, rfl, by rw [hg]; rfl⟩

/-- The example stack meets the conditions. -/
theorem stackOk_example : StackOk [regionMatch, streetMatch] := by
  refine ⟨?_, ?_, ?_⟩ <;> decide +kernel

theorem isLast_example : IsLast [regionMatch, streetMatch] streetMatch := by
  refine ⟨by simp, ?_⟩
  intro q hq hne
  simp only [List.mem_cons, List.not_mem_nil, or_false] at hq
  rcases hq with rfl | rfl
  · left; decide +kernel
  · exact absurd rfl hne

example : ∃ out, coalesce listEnv (fun _ => .id) [regionMatch, streetMatch] ⟨none, none, 6⟩ =
      some out ∧
    (out.map fun c => (c.relev, c.entries.map fun e => e.entry.relev)) =
      [(lit 0.99, [lit 0.5, lit 0.5])] ∧
    ∀ c ∈ out, RelevIs c (if c.first.mask = 2 then penalty c.entries else 0) :=
  ⟨(coalesce listEnv (fun _ => .id) [regionMatch, streetMatch] ⟨none, none, 6⟩).getD [],
    by decide +kernel, by decide +kernel,
    C58_relevance_is_sum listEnv (fun _ => .id) _ ⟨none, none, 6⟩ (by decide) stackOk_example
      (Or.inr (by decide +kernel)) streetMatch isLast_example _ (by decide +kernel)⟩

/-! ## C57 -/

/-- What becomes of a context that `coalesce` picks from. -/
theorem pickContexts_complete {R : Context → Context → Prop} {r : F64} {cs : List Context}
    (hs : cs.Pairwise R) {c : Context} (hc : c ∈ cs) (n : ℕ) (seen : List ℕ) :
    c ∈ pickContexts r n seen cs ∨ c.first.tmpId ∈ seen ∨
    (∃ d ∈ pickContexts r n seen cs, d.first.tmpId = c.first.tmpId ∧ R d c) ∨
    (maxContexts ≤ n + (pickContexts r n seen cs).length ∧
      ∀ d ∈ pickContexts r n seen cs, R d c) ∨
    ∃ x, (x = c ∨ R x c) ∧ x ∈ cs ∧ F64.fle (lit 0.25) (r - x.relev) = true := by
  induction cs generalizing n seen with
  | nil => cases hc
  | cons x t ih =>
    rw [List.pairwise_cons] at hs
    unfold pickContexts
    split_ifs with h1 h2 h3
    · exact Or.inr (Or.inr (Or.inr (Or.inl ⟨by simpa using h1, by simp⟩)))
    · refine Or.inr (Or.inr (Or.inr (Or.inr ⟨x, ?_, List.mem_cons_self, h2⟩)))
      rcases List.mem_cons.1 hc with rfl | hc
      · exact Or.inl rfl
      · exact Or.inr (hs.1 c hc)
    · rcases List.mem_cons.1 hc with rfl | hc
      · exact Or.inr (Or.inl h3)
      · rcases ih hs.2 hc n seen with h | h | h | h | ⟨y, hy, hyt, hyr⟩
        · exact Or.inl h
        · exact Or.inr (Or.inl h)
        · exact Or.inr (Or.inr (Or.inl h))
        · exact Or.inr (Or.inr (Or.inr (Or.inl h)))
        · exact Or.inr (Or.inr (Or.inr (Or.inr ⟨y, hy, List.mem_cons_of_mem _ hyt, hyr⟩)))
    · rcases List.mem_cons.1 hc with rfl | hc
      · exact Or.inl List.mem_cons_self
      · have hxc := hs.1 c hc
        rcases ih hs.2 hc (n + 1) (x.first.tmpId :: seen) with h | h | ⟨d, hd, hdc⟩ | ⟨h, hd⟩ |
          ⟨y, hy, hyt, hyr⟩
        · exact Or.inl (List.mem_cons_of_mem _ h)
        · rcases List.mem_cons.1 h with h | h
          · exact Or.inr (Or.inr (Or.inl ⟨x, List.mem_cons_self, h.symm, hxc⟩))
          · exact Or.inr (Or.inl h)
        · exact Or.inr (Or.inr (Or.inl ⟨d, List.mem_cons_of_mem _ hd, hdc⟩))
        · refine Or.inr (Or.inr (Or.inr (Or.inl ⟨?_, ?_⟩)))
          · rw [List.length_cons]
            omega
          · intro d hd'
            rcases List.mem_cons.1 hd' with rfl | hd'
            · exact hxc
            · exact hd d hd'
        · exact Or.inr (Or.inr (Or.inr (Or.inr ⟨y, hy, List.mem_cons_of_mem _ hyt, hyr⟩)))

theorem testBit_unionMask (l : List ℕ) (i : ℕ) :
    (unionMask l).testBit i = l.any fun m => m.testBit i := by
  induction l with
  | nil => simp [unionMask]
  | cons a t ih =>
    show (a ||| unionMask t).testBit i = _
    rw [Nat.testBit_or, ih, List.any_cons]

theorem unionMask_congr {a b : List ℕ} (h : ∀ m, m ∈ a ↔ m ∈ b) : unionMask a = unionMask b := by
  refine Nat.eq_of_testBit_eq fun i => ?_
  rw [testBit_unionMask, testBit_unionMask, Bool.eq_iff_iff, List.any_eq_true, List.any_eq_true]
  simp only [h]

/-- Contexts for all phrase matches of a stack. -/
theorem full_masks {stack : List Subquery} (hok : StackOk stack) {c : Context}
    (hc : CtxRel (relevVals stack) c) (hall : ∀ q ∈ stack, q.mask ∈ c.masks) :
    c.mask = unionMask (stack.map (·.mask)) ∧ c.entries.length = stack.length := by
  have hmem : ∀ m, m ∈ c.masks ↔ m ∈ stack.map (·.mask) := by
    intro m
    constructor
    · intro h
      obtain ⟨e, he, rfl⟩ := List.mem_map.1 h
      obtain ⟨q, hq, hqe⟩ := (hc.ok e he).source
      rw [← hqe]
      exact List.mem_map_of_mem hq
    · intro h
      obtain ⟨q, hq, rfl⟩ := List.mem_map.1 h
      exact hall q hq
  have nodup : ∀ l : List ℕ, (∀ m ∈ l, m ≠ 0) → l.Pairwise (fun a b => a &&& b = 0) → l.Nodup := by
    intro l h0 hd
    refine hd.imp_of_mem ?_
    intro a b ha _ hab he
    rw [← he, Nat.and_self] at hab
    exact h0 a ha hab
  refine ⟨hc.mask.trans (unionMask_congr hmem), ?_⟩
  have h1 : c.masks.Nodup := nodup _ (by
    intro m hm
    obtain ⟨e, he, rfl⟩ := List.mem_map.1 hm
    exact (hc.ok e he).mask.1) (List.pairwise_map.2 hc.disjoint)
  have h2 : (stack.map (·.mask)).Nodup := nodup _ (by
    intro m hm
    obtain ⟨q, hq, rfl⟩ := List.mem_map.1 hm
    exact (hok.covers q hq).1) (List.pairwise_map.2 hok.disjoint)
  have := ((List.perm_ext_iff_of_nodup h1 h2).2 hmem).length_eq
  simpa [Context.masks] using this

theorem fle_quarter_of_not {a b : F64} (ha : a.IsFin) (hb : b.IsFin)
    (h : F64.flt (a - b) (lit 0.25) = false) : F64.fle (lit 0.25) (a - b) = true := by
  obtain ⟨x, rfl⟩ := ha.exists
  obtain ⟨y, rfl⟩ := hb.exists
  have hn : (F64.fin x - F64.fin y) ≠ .nan := F64.ofRat_ne_nan _
  have hq : lit 0.25 ≠ .nan := F64.ofRat_ne_nan _
  rw [fle_iff hq hn]
  exact le_of_flt_false hn hq h

/-- No relevance is so far below zero. -/
theorem not_far_below_zero {stack : List Subquery} {c : Context}
    (h : CtxRel (relevVals stack) c) :
    F64.flt (0 - c.penalize.relev) (lit 0.25) = true := by
  obtain ⟨hf, he⟩ := h.relevIs_penalize
  obtain ⟨y, hy⟩ := hf.exists
  rw [hy] at he ⊢
  have h0 := (entrySum_bounds h.ok).1
  have h32 : entrySum c.penalize.entries ≤ 32 := by
    rw [penalize_entries]
    refine (entrySum_bounds h.ok).2.trans ?_
    exact_mod_cast h.length_le
  have hp : penalty c.entries = 0 ∨ penalty c.entries = 1 / 100 := by
    unfold penalty
    split
    · split_ifs <;> simp
    · simp
  have h0' : 0 ≤ entrySum c.penalize.entries := by rw [penalize_entries]; exact h0
  have he' := abs_le.1 he
  simp only [value] at he'
  have hy1 : -(1/50) ≤ y ∧ y ≤ 33 := by
    have h39 : (1:ℚ) / 2 ^ 39 ≤ 1 / 100 := by norm_num
    rcases hp with hp | hp <;> rw [hp] at he' <;> constructor <;> linarith
  obtain ⟨d, hd, hde⟩ := F64.sub_err (a := 0) (b := y) (by
    rw [abs_lt]; constructor <;> linarith [hy1.1, hy1.2])
  have hz : (0 : F64) = .fin 0 := rfl
  rw [hz, hd]
  have hq : lit 0.25 = .fin (1/4) := by decide +kernel
  rw [hq, flt_iff (by simp) (by simp), F64.fin_lt_fin]
  have hde' := abs_le.1 hde
  have h48 : (1:ℚ) / 2 ^ 48 ≤ 1 / 100 := by norm_num
  linarith [hy1.1]

/-- C57. If one grid of each phrase match of the stack lies inside the grids of the phrase matches
before it (by zoom, then index number), then there is a context for the innermost one, with an entry
for every phrase match at least as relevant as the grid given, and `coalesce` returns it, unless it returns one for the same feature (the
same temporary id) that does not rank behind it, or 40 of them, or the context is 0.25 or more below
another consistent one. -/
theorem C57_nested_found (env : Env) (os : ℕ → IterOrder) (stack : List Subquery)
    (opts : MatchOpts) (hlen : 2 ≤ stack.length) (hok : StackOk stack)
    (hidx : (stack.map (·.idx)).Nodup)
    (hz : env.chk = true ∨ ∀ q ∈ stack, ∀ q' ∈ stack, q.store.zoom < q'.store.zoom + 16)
    (ps : List (Subquery × MatchEntry)) (l : Subquery) (g : MatchEntry)
    (hps : NestedGrids env opts stack (ps ++ [(l, g)])) (out : List Context)
    (h : coalesce env os stack opts = some out) :
    ∃ c, MadeFrom l g c.first ∧ c.mask = unionMask (stack.map (·.mask)) ∧
      c.entries.length = stack.length ∧ ConsistentContext env opts stack c ∧
      (∀ p ∈ ps ++ [(l, g)], ∃ e ∈ c.entries, e.mask = p.1.mask ∧
        p.2.entry.relev * p.1.weight ≤ e.entry.relev) ∧
      RelevIs c (penalty c.entries) ∧
      (c ∈ out ∨ (∃ d ∈ out, d.first.tmpId = c.first.tmpId ∧ NotBehind d c) ∨
        (out.length = 40 ∧ ∀ d ∈ out, NotBehind d c) ∨
        ∃ d, ConsistentContext env opts stack d ∧ (RelevIs d 0 ∨ RelevIs d (penalty d.entries)) ∧
          F64.fle (lit 0.25) (d.relev - c.relev) = true) := by
  obtain ⟨cs, hcs, hsub, hout⟩ := mem_allContexts h
  have hsorted := allContexts_sorted hcs
  unfold allContexts at hcs
  rw [if_neg (by omega)] at hcs
  have hperm := List.perm_insertionSort (fun a b : Subquery => a.stackKey ≤ b.stackKey) stack
  have horder : ((ps ++ [(l, g)]).map Prod.fst).Pairwise Before := List.pairwise_map.2 hps.order
  -- the order of the grids is the order of the sorted stack
  have hsort : (stack.insertionSort fun a b => a.stackKey ≤ b.stackKey) =
      ps.map Prod.fst ++ [l] := by
    have hp := hperm.trans hps.all.symm
    have hs := sorted_stack stack
    rw [List.map_append, List.map_singleton] at hp horder
    refine hp.eq_of_pairwise ?_ hs (horder.imp fun {a b} hab => ?_)
    · intro a b ha hb hab hba
      by_contra hne
      have hb' : b ∈ ps.map Prod.fst ++ [l] := hb
      have ha' : a ∈ ps.map Prod.fst ++ [l] := hp.mem_iff.1 ha
      have hlt : ∀ {x y : Subquery}, x.stackKey ≤ y.stackKey → y.stackKey ≤ x.stackKey →
          ¬ Before x y := fun h1 h2 hb => before_not_le hb h2
      obtain ⟨i, hi, rfl⟩ := List.getElem_of_mem ha'
      obtain ⟨j, hj, rfl⟩ := List.getElem_of_mem hb'
      rcases lt_trichotomy i j with hij | hij | hij
      · exact hlt hab hba (List.pairwise_iff_getElem.1 horder i j hi hj hij)
      · subst hij; exact hne rfl
      · exact hlt hba hab (List.pairwise_iff_getElem.1 horder j i hj hi hij)
    · by_contra hle
      exact hle (le_of_lt (not_le.1 (before_not_le hab)))
  rw [hsort] at hperm
  have hok' := hok.perm hperm
  have hst : MultiOk env (ps.map Prod.fst ++ [l]) := ⟨hok', hz.imp_right fun hz q hq q' hq' =>
    hz q (hperm.mem_iff.1 hq) q' (hperm.mem_iff.1 hq')⟩
  obtain ⟨hall, hnest⟩ := coalesceMulti_summary hsort hst hcs
  obtain ⟨z, c, hc, hfirst, hbest, hres⟩ := hnest ((hperm.map _).nodup_iff.2 hidx) ps g
    ⟨by simp, hps.nested, hps.found⟩
  have hcov : ∀ q ∈ ps.map Prod.fst ++ [l], q.mask ∈ c.masks := by
    intro q' hq'
    rw [show ps.map Prod.fst ++ [l] = (ps ++ [(l, g)]).map Prod.fst by simp] at hq'
    obtain ⟨p, hp, rfl⟩ := List.mem_map.1 hq'
    obtain ⟨e, he, hem, -⟩ := hbest p hp
    rw [← hem]
    exact List.mem_map_of_mem he
  obtain ⟨hm, hl⟩ := full_masks hok' hc.rel hcov
  have hfp : c.penalize.first = c.first := Context.first_of_head (by rw [penalize_entries])
  have hrel := hc.rel.relevIs_penalize
  refine ⟨c.penalize, ?_, ?_, ?_, (hc.consistent hperm).2, by rw [penalize_entries]; exact hbest, ?_, ?_⟩
  · rw [hfp, hfirst]
    exact toEntry_madeFrom l g
  · rw [penalize_mask, hm]
    exact unionMask_congr fun m => (hperm.map _).mem_iff
  · rw [penalize_entries, hl, hperm.length_eq]
  · rw [penalize_entries]; exact hrel
  · rcases hres with hin | ⟨r, hr, hlt⟩
    · -- among the contexts to pick from
      cases cs with
      | nil => cases hin
      | cons c0 t =>
        have hgood : ∀ d ∈ c0 :: t, ConsistentContext env opts stack d ∧
            (RelevIs d 0 ∨ RelevIs d (penalty d.entries)) := by
          intro d hd
          rcases hall d hd with ⟨z, hp⟩ | ⟨z, d', hp, rfl⟩
          · exact ⟨(hp.consistent hperm).1, Or.inl hp.rel.relevIs⟩
          · refine ⟨(hp.consistent hperm).2, Or.inr ?_⟩
            rw [penalize_entries]
            exact hp.rel.relevIs_penalize
        have hfin : ∀ d ∈ c0 :: t, d.relev.IsFin := fun d hd => by
          rcases (hgood d hd).2 with h | h
          · exact h.1
          · exact h.1
        have hout : out = pickContexts c0.relev 0 [] (c0 :: t) := hout
        have hpick := pickContexts_complete (r := c0.relev) hsorted hin 0 []
        rw [← hout] at hpick
        rcases hpick with h | h | h | ⟨h, h'⟩ | ⟨x, hx, hxm, hxr⟩
        · exact Or.inl h
        · cases h
        · exact Or.inr (Or.inl h)
        · refine Or.inr (Or.inr (Or.inl ⟨?_, h'⟩))
          have hle := pickContexts_length c0.relev 0 [] (c0 :: t)
          rw [← hout] at hle
          unfold maxContexts at h hle
          omega
        · refine Or.inr (Or.inr (Or.inr ⟨c0, (hgood c0 List.mem_cons_self).1,
            (hgood c0 List.mem_cons_self).2, ?_⟩))
          have hcx : c.penalize.relev ≤ x.relev := by
            rcases hx with rfl | h | h
            · exact le_refl _
            · exact h.le
            · exact h.1.le
          have hmono := F64.sub_mono (hfin c0 List.mem_cons_self) (hfin x hxm)
            (hfin c0 List.mem_cons_self) (hfin _ hin) (le_refl _) hcx
          unfold F64.fle at hxr ⊢
          have hxr := of_decide_eq_true hxr
          obtain ⟨u, hu⟩ := (hfin c0 List.mem_cons_self).exists
          obtain ⟨v, hv⟩ := (hfin _ hin).exists
          refine decide_eq_true ⟨hxr.1, ?_, hxr.2.2.trans hmono⟩
          rw [hu, hv]
          exact F64.ofRat_ne_nan _
    · -- too far below a better one when it was made
      right; right; right
      rcases hr with rfl | ⟨z', d, hd, rfl⟩
      · rw [not_far_below_zero hc.rel] at hlt
        cases hlt
      · exact ⟨d, (hd.consistent hperm).1, Or.inl hd.rel.relevIs,
          fle_quarter_of_not hd.rel.relevIs.1 hrel.1 hlt⟩

/-- The first feature of the region index. -/
def regionGrid : MatchEntry := ⟨⟨1, 7, 1, 2, 3, 0⟩, true, 0, lit 7⟩

/-- The feature of the street index inside its tile. -/
def streetGrid : MatchEntry := ⟨⟨1, 3, 5, 9, 7, 0⟩, true, 0, lit 3⟩

theorem nested_example : NestedGrids listEnv ⟨none, none, 6⟩ [streetMatch, regionMatch]
    ([(regionMatch, regionGrid)] ++ [(streetMatch, streetGrid)]) := by
  refine ⟨List.Perm.swap _ _ _, ?_, ?_, ?_⟩
  · refine List.pairwise_pair.2 (Or.inl ?_)
    decide +kernel
  · refine List.pairwise_pair.2 ?_
    unfold TileContains
    decide +kernel
  · intro p hp
    simp only [List.cons_append, List.nil_append, List.mem_cons, List.not_mem_nil, or_false] at hp
    rcases hp with rfl | rfl
    · exact ⟨⟨none, none, 6⟩, ⟨⟨.exact 1, 1⟩, false, 0, 5⟩,
        (listEnv.query regionStore ⟨.exact 1, 1⟩ ⟨none, none, 6⟩ 100000).getD [],
        by decide +kernel, by decide +kernel, by decide +kernel, by decide +kernel⟩
    · exact ⟨⟨none, none, 8⟩, ⟨⟨.exact 2, 1⟩, false, 1, 5⟩,
        (listEnv.query streetStore ⟨.exact 2, 1⟩ ⟨none, none, 8⟩ 100000).getD [],
        by decide +kernel, by decide +kernel, by decide +kernel, by decide +kernel⟩

example : ∃ c : Context, MadeFrom streetMatch streetGrid c.first ∧
    c.mask = unionMask [2, 1] ∧ c.entries.length = 2 := by
  obtain ⟨c, h1, h2, h3, -⟩ := C57_nested_found listEnv (fun _ => .id) [streetMatch, regionMatch]
    ⟨none, none, 6⟩ (by decide) (stackOk_example.perm (List.Perm.swap _ _ _)) (by decide +kernel)
    (Or.inr (by decide +kernel)) _ _ _ nested_example
    ((coalesce listEnv (fun _ => .id) [streetMatch, regionMatch] ⟨none, none, 6⟩).getD [])
    (by decide +kernel)
  exact ⟨c, h1, h2, h3⟩

/-- The context is returned. -/
example : (coalesce listEnv (fun _ => .id) [streetMatch, regionMatch] ⟨none, none, 6⟩).map
    (List.map fun c => (c.first, c.mask, c.entries.length)) =
      some [(toEntry streetGrid streetMatch 0, 3, 2)] := by decide +kernel

end Carmen

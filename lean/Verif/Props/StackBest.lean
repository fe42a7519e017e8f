import Verif.Spec.StackBest
import Verif.Props.Stack
import Verif.Lemmas.StackValue

/-!
# C59: the stack limit drops only stacks worse than all it keeps

`C59_leaves`: a stack is only missing when the tree holds as many complete stacks as the limit.
That all of these are more relevant holds when the sums of weights are exact
(`C59_exact_partial`), and up to 2⁻⁴¹ in general (`C59_rounded_partial`); without allowing for
rounding it is false (`C59_false`). -/

namespace Carmen

open Spec

/-- The construction, with what it keeps. -/
theorem stackable_keeps {sm : ℕ} {pms : List Subquery} {t : StackTree}
    (h : stackableWith sm pms = some t) (hw : ∀ q ∈ pms, q.weight.IsFin ∧ q.weight ≤ 1) :
    ArenaReached sm t.arena ∧
      (∀ q qs, Chain (pmBins pms) 0 129 (q :: qs) → Reaches t.arena.minRelev (pmBins pms) 0 (q :: qs) →
        countPaths t t.root (q :: qs) = ((q :: qs).map fun x => pms.count x).prod) ∧
      ∀ i n, t.arena.get i = some n → Below t t.root.children i := by
  unfold stackableWith at h
  cases hl : stackLoop (pmBins pms) 0 (rootNode, Arena.new sm) with
  | none => rw [hl] at h; cases h
  | some st =>
    rw [hl] at h
    obtain rfl := Option.some.inj h
    have hperm := pmBins_perm pms
    obtain ⟨ch, k⟩ := stackLoop_keeps (pmBins_typed pms)
      (fun q hq => hw q (hperm.mem_iff.1 hq)) (by decide +kernel)
      (show rootNode.maxRelev ≤ F64.maxValue by decide +kernel) (.new (softMax := sm)) hl
    have hch : st.1.children = ch := by simpa [rootNode] using k.children
    refine ⟨k.grows.reached .new, ?_, ?_⟩
    · intro q qs hc hr
      obtain ⟨pre, b, rest, e1, e2, e3, e4, e5⟩ := hc
      obtain ⟨e6, e7⟩ := hr pre b rest e1 e2
      have hq : q ∈ (pmBins pms).flatMap PmBin.pms :=
        List.mem_flatMap.2 ⟨b, by rw [e1]; simp, e2⟩
      have := (k.found ⟨st.1, st.2⟩ (.refl _) q qs _ hq
        ⟨pre, b, rest, e1, e2, e3, e4, e5, e6, e7, rfl⟩).1
      have hs : countPaths ⟨st.1, st.2⟩ st.1 (q :: qs) = sumPaths ⟨st.1, st.2⟩ ch q qs := by
        rw [countPaths, hch]
        rfl
      rw [hs, this, List.map_cons, List.prod_cons, hperm.count_eq]
      congr 2
      refine List.map_congr_left fun x hx => ?_
      have hsuf := TypedBins.count_suffix (pre := pre ++ [b]) (bins := rest)
        (by have := pmBins_typed pms; rw [e1] at this; simpa using this) (e5.mem x hx)
      rw [← hsuf, ← hperm.count_eq, e1]
      simp
    · intro i n hi
      have hlen : i < st.2.nodes.length := by
        by_contra hcon
        have : (st.2.nodes[i]?) = none := List.getElem?_eq_none (not_lt.1 hcon)
        have hi' := Arena.get_eq_some.1 hi
        rw [this] at hi'
        cases hi'
      show Below _ st.1.children i
      rw [hch]
      exact (k.reach ⟨st.1, st.2⟩ (.refl _) i n (Nat.zero_le _) hlen hi).2

theorem below_inTree {t : StackTree} {cs : List ℕ} {i : ℕ} (h : Below t cs i)
    (hcs : ∀ c ∈ cs, (t.arena.get c).isSome → InTree t c) : InTree t i := by
  induction h with
  | here h1 h2 => exact hcs _ h1 (by rw [h2]; rfl)
  | down h1 h2 _ ih =>
    exact ih fun c hc hs => .child (hcs _ h1 (by rw [h2]; rfl)) h2 hc hs

/-- C59, first part: a stack is only missing when the tree holds at least as many complete stacks as
the limit. -/
theorem C59_leaves {sm : ℕ} {pms : List Subquery} {t : StackTree}
    (h : stackableWith sm pms = some t) (hw : ∀ q ∈ pms, q.weight.IsFin ∧ q.weight ≤ 1)
    {qs : List Subquery} (hm : Missing pms t qs) : LeavesAtLeast t sm := by
  obtain ⟨hr, _, hbelow⟩ := stackable_keeps h hw
  have hfull : sm ≤ t.arena.totalLeaves := by
    by_contra hcon
    have := C32_complete h (by rw [hr.wf.2]; exact not_le.1 hcon) hm.1
    exact absurd hm.2 (by rw [this]; exact lt_irrefl _)
  rw [C33_leaf_count_exact_partial hr] at hfull
  refine ⟨_, List.Nodup.filter _ List.nodup_range, hfull, ?_⟩
  intro i hi
  have hi' := (List.mem_filter.1 hi).2
  cases hg : t.arena.get i with
  | none => rw [hg] at hi'; cases hi'
  | some m =>
    rw [hg] at hi'
    exact ⟨below_inTree (hbelow i m hg) fun c hc hs => .root hc hs, m, rfl, hi'⟩

theorem leafStack_min {sm : ℕ} {pms : List Subquery} {t : StackTree}
    (h : stackableWith sm pms = some t) (hr : ArenaReached sm t.arena) {ls : List Subquery}
    (hl : LeafStack t ls) : t.arena.minRelev ≤ stackRelev ls := by
  obtain ⟨p, m, hp, hm, hls⟩ := hl
  rw [← C30_leaf_relevance h hp hm hls]
  obtain ⟨_, h2⟩ := treePath_append.1 hp
  obtain ⟨⟨c, _, hc⟩, _⟩ := h2
  exact hr.wf.1.minRelev_le hc

/-- What holds of missing stacks when sums are right up to `ε`. -/
theorem missing_value {D : ℚ → Prop} {B ε : ℚ} (hA : SumsTo D B ε) {sm : ℕ} {pms : List Subquery}
    {t : StackTree} (h : stackableWith sm pms = some t) (hw : ∀ q ∈ pms, WeightOk D q.weight)
    {N : ℕ} (hN : (pms.map fun q => q.store.typeId).dedup.length ≤ N)
    (hB : (N : ℚ) * (1 + ε) + ε ≤ B) {qs ls : List Subquery} (hm : Missing pms t qs)
    (hl : LeafStack t ls) :
    ∃ s l, stackRelev qs = .fin s ∧ stackRelev ls = .fin l ∧ s < l + (2 * N + 1) * ε := by
  have heps := hA.eps
  have hlen := pmBins_length pms
  have hlen' : (pmBins pms).length ≤ N := le_trans hlen hN
  have hafter := pmBins_after hA hw (by
    have : ((pms.map fun q => q.store.typeId).dedup.length : ℚ) ≤ N := by exact_mod_cast hN
    nlinarith)
  have hB' : ((0 + (pmBins pms).length : ℕ) : ℚ) * (1 + ε) + ε ≤ B := by
    have : ((pmBins pms).length : ℚ) ≤ N := by exact_mod_cast hlen'
    rw [Nat.zero_add]
    nlinarith
  have hw' : ∀ q ∈ pms, q.weight.IsFin ∧ q.weight ≤ 1 := by
    intro q hq
    obtain ⟨x, h1, _, h3⟩ := hw q hq
    rw [h1]
    exact ⟨trivial, F64.fin_le_fin.2 h3⟩
  obtain ⟨hr, hfound, _⟩ := stackable_keeps h hw'
  have hval : ∀ l, IsStack pms l → ∃ s, stackRelev l = .fin s := by
    intro l hl
    obtain ⟨s, s1, _⟩ := fold_value hA (x := 0) (j := 0) hafter ((chain_iff_isStack pms l).2 hl)
      hA.zero (by simp) hB'
    exact ⟨s, s1⟩
  obtain ⟨s, hs⟩ := hval qs hm.1
  have hlst : IsStack pms ls := by
    obtain ⟨p, m, hp, _, hls⟩ := hl
    obtain ⟨K, hK⟩ := stackable_ghost h
    obtain ⟨qs', _, e1, e2, _⟩ := path_chain hK.inv hK.nodes hK.root hp
    have : qs' = ls := by
      rw [hls] at e1
      exact ((List.map_injective_iff.2 (Option.some_injective _)) e1).symm
    subst this
    refine (chain_iff_isStack pms qs').1 ?_
    have e3 : t.root.mask = 0 := hK.same.2.1
    have e4 : t.root.idx = 129 := hK.same.2.2.1
    rw [← e3, ← e4]
    exact e2
  obtain ⟨l, hl'⟩ := hval ls hlst
  refine ⟨s, l, hs, hl', ?_⟩
  by_contra hcon
  have hmin := leafStack_min h hr hl
  rw [hl'] at hmin
  have hne : qs ≠ [] := by
    rintro rfl
    have := hm.2
    simp [countPaths] at this
  obtain ⟨q, qt, rfl⟩ := List.exists_cons_of_ne_nil hne
  have hc := (chain_iff_isStack pms (q :: qt)).2 hm.1
  have hreach := reaches_of_value hA (m := t.arena.minRelev) (s := s) (N := N) (x := 0) (j := 0)
    (pmBins_typed pms) hafter hc hA.zero (by simp) hB' hlen' hs
    (le_trans hmin (F64.fin_le_fin.2 (by linarith)))
  have := hfound q qt hc hreach
  exact absurd hm.2 (by rw [this]; exact lt_irrefl _)

/-- Multiples of `2⁻ᵏ` up to 2⁵³ of them add without rounding. -/
theorem adds_dyadic {k : ℕ} (hk : k ≤ 1074) :
    SumsTo (fun a => ∃ n : ℕ, a = n / 2 ^ k) (2 ^ 53 / 2 ^ k) 0 where
  eps := le_refl _
  zero := ⟨0, by simp⟩
  nonneg := by rintro a ⟨n, rfl⟩; positivity
  add := by
    rintro a b ⟨n, rfl⟩ ⟨m, rfl⟩ hab
    have hpos : (0:ℚ) < 2 ^ k := by positivity
    have hsum : (n : ℚ) / 2 ^ k + m / 2 ^ k = ((n + m : ℕ) : ℚ) / 2 ^ k := by
      push_cast
      ring
    rw [hsum] at hab ⊢
    have hle : n + m ≤ 2 ^ 53 := by
      have := (div_le_div_iff_of_pos_right hpos).1 hab
      exact_mod_cast this
    refine ⟨((n + m : ℕ) : ℚ) / 2 ^ k, ?_, ⟨n + m, rfl⟩, by simp⟩
    show F64.ofRat ((n : ℚ) / 2 ^ k + m / 2 ^ k) = _
    rw [hsum]
    refine F64.ofRat_of_valid ⟨?_, ?_, ?_⟩
    · have := F64.roundQ_of_mul_pow (m := ((n + m : ℕ) : ℤ)) (e := -(k : ℤ))
        (by rw [abs_of_nonneg (by positivity)]; exact_mod_cast hle) (by omega)
      simpa [zpow_neg, div_eq_mul_inv] using this
    · have h2 : (0:ℚ) ≤ ((n + m : ℕ) : ℚ) / 2 ^ k := by positivity
      exact lt_of_lt_of_le (neg_lt_zero.2 F64.overflowBound_pos) h2
    · have h1 : ((n + m : ℕ) : ℚ) / 2 ^ k ≤ (n + m : ℕ) :=
        div_le_self (by positivity) (one_le_pow₀ (by norm_num))
      have h2 : ((n + m : ℕ) : ℚ) ≤ 2 ^ 53 := by exact_mod_cast hle
      exact lt_of_le_of_lt (le_trans h1 h2) F64.overflowBound_gt

/-- Nonnegative numbers add up to 63 with an error of at most 2⁻⁴⁸. -/
theorem adds_rounded : SumsTo (fun a => 0 ≤ a) 63 (1 / 2 ^ 48) where
  eps := by positivity
  zero := le_refl _
  nonneg _ h := h
  add := by
    intro a b ha hb hab
    have h0 : 0 ≤ a + b := add_nonneg ha hb
    obtain ⟨r, h1, h2⟩ := F64.add_err (a := a) (b := b) (by rw [abs_of_nonneg h0]; linarith)
    refine ⟨r, h1, ?_, h2⟩
    have h3 : F64.ofRat 0 ≤ F64.ofRat (a + b) := F64.ofRat_mono h0
    rw [F64.ofRat_zero, show F64.ofRat (a + b) = .fin r from h1] at h3
    exact F64.fin_le_fin.1 h3

/-- C59, second part, for weights whose sums are exact: every complete stack in the tree is more
relevant than a stack that is missing. -/
theorem C59_exact_partial {sm : ℕ} {pms : List Subquery} {t : StackTree}
    (h : stackableWith sm pms = some t) {k : ℕ}
    (hw : ∀ q ∈ pms, ∃ n : ℕ, n ≤ 2 ^ k ∧ q.weight = .fin (n / 2 ^ k))
    (hk : (pms.map fun q => q.store.typeId).dedup.length * 2 ^ k ≤ 2 ^ 53)
    {qs ls : List Subquery} (hm : Missing pms t qs) (hl : LeafStack t ls) :
    stackRelev qs < stackRelev ls := by
  have hpos : (0:ℚ) < 2 ^ k := by positivity
  have hk' : k ≤ 53 := by
    have hne : qs ≠ [] := by
      rintro rfl
      have := hm.2
      simp [countPaths] at this
    obtain ⟨q, qt, rfl⟩ := List.exists_cons_of_ne_nil hne
    have h1 := List.length_pos_of_mem (List.mem_dedup.2 (List.mem_map_of_mem
      (f := fun q : Subquery => q.store.typeId) (hm.1.mem q (by simp))))
    exact (Nat.pow_le_pow_iff_right (by norm_num)).1 (le_trans (Nat.le_mul_of_pos_left _ h1) hk)
  obtain ⟨s, l, h1, h2, h3⟩ := missing_value (adds_dyadic (k := k) (by omega)) h
    (fun q hq => by
      obtain ⟨n, hn, he⟩ := hw q hq
      refine ⟨_, he, ⟨n, rfl⟩, ?_⟩
      rw [div_le_one hpos]
      exact_mod_cast hn) (le_refl _)
    (by
      rw [add_zero, add_zero, mul_one, le_div_iff₀ hpos]
      exact_mod_cast hk) hm hl
  rw [h1, h2]
  exact F64.fin_lt_fin.2 (by simpa using h3)

/-- C59, second part, for all weights: no complete stack in the tree is less relevant than a stack
that is missing, except by rounding. -/
theorem C59_rounded_partial {sm : ℕ} {pms : List Subquery} {t : StackTree}
    (h : stackableWith sm pms = some t)
    (hw : ∀ q ∈ pms, q.weight.IsFin ∧ 0 ≤ q.weight ∧ q.weight ≤ 1)
    (hk : (pms.map fun q => q.store.typeId).dedup.length ≤ 62)
    {qs ls : List Subquery} (hm : Missing pms t qs) (hl : LeafStack t ls) :
    ∃ s l, stackRelev qs = .fin s ∧ stackRelev ls = .fin l ∧ s < l + 1 / 2 ^ 41 := by
  obtain ⟨s, l, h1, h2, h3⟩ := missing_value adds_rounded h
    (fun q hq => by
      obtain ⟨h1, h2, h3⟩ := hw q hq
      obtain ⟨x, hx⟩ := h1.exists
      rw [hx] at h2 h3 ⊢
      exact ⟨x, rfl, F64.fin_le_fin.1 h2, F64.fin_le_fin.1 h3⟩) hk (by norm_num) hm hl
  exact ⟨s, l, h1, h2, lt_trans h3 (by norm_num)⟩

/-- A phrase match that finds nothing; they differ in their indexes. -/
def tiedMatch (i : ℕ) : Subquery :=
  ⟨emptyStore 0 6, i + 10, [], lit 0.45, 7, [⟨⟨.exact i, 1⟩, false, i, 1⟩]⟩

/-- Three phrase matches that make up a stack. -/
def roundedStack : List Subquery :=
  [⟨emptyStore 0 6, 1, [], lit 0.1, 1, []⟩, ⟨emptyStore 1 8, 2, [], lit 0.2, 2, []⟩,
   ⟨emptyStore 2 10, 3, [], lit 0.15, 4, []⟩]

/-- As many phrase matches as the limit, and three more. -/
def limitPms (n : ℕ) (rs : List Subquery) : List Subquery := (List.range n).map tiedMatch ++ rs

/-- Three phrase matches of these types, weights and masks. -/
structure Rounded (a b c : Subquery) : Prop where
  types : a.store.typeId = 0 ∧ b.store.typeId = 1 ∧ c.store.typeId = 2
  weights : a.weight = lit 0.1 ∧ b.weight = lit 0.2 ∧ c.weight = lit 0.15
  masks : a.mask = 1 ∧ b.mask = 2 ∧ c.mask = 4

/-- The root after the tied phrase matches. -/
def tiedRoot (n : ℕ) : StackNode :=
  { rootNode with children := List.range n, maxRelev := if n = 0 then 0 else lit 0.45 }

/-- The leaf of a tied phrase match. -/
def tiedLeaf (i : ℕ) : StackNode := childNode rootNode (tiedMatch i) (lit 0.45)

/-- The arena after `n` of the tied phrase matches. -/
def tiedArena (sm n : ℕ) : Arena :=
  ⟨(List.range n).map fun i => (tiedLeaf i, true),
    if n = 0 then [] else [(lit 0.45, (n, List.range n))],
    if n = 0 then F64.maxValue else lit 0.45, n, sm⟩

theorem tied_bins (n : ℕ) : ((List.range n).map tiedMatch).foldl binPut ([] : SMap ℕ PmBin) =
    if n = 0 then [] else [(0, ⟨(List.range n).map tiedMatch, lit 0.45, 0⟩)] := by
  induction n with
  | zero => rfl
  | succ n ih =>
    rw [List.range_succ, List.map_append, List.foldl_append, ih, if_neg (Nat.succ_ne_zero n)]
    have h1 : F64.flt 0 (lit 0.45) = true := by decide +kernel
    have h2 : F64.flt (lit 0.45) (lit 0.45) = false := by decide +kernel
    by_cases hn : n = 0
    · subst hn
      simp [binPut, tiedMatch, emptyStore, SMap.find, SMap.insert, h1]
    · rw [if_neg hn]
      simp [binPut, tiedMatch, emptyStore, SMap.find, SMap.insert, h2]

/-- The bins: all tied phrase matches and the first of the stack, then the other two. -/
theorem limit_bins {n : ℕ} (hn : n ≠ 0) {a b c : Subquery} (hr : Rounded a b c) :
    pmBins (limitPms n [a, b, c]) =
    [⟨(List.range n).map tiedMatch ++ [a], lit 0.45, lit 0.15 + lit 0.2⟩,
     ⟨[b], lit 0.2, lit 0.15⟩, ⟨[c], lit 0.15, 0⟩] := by
  obtain ⟨⟨t1, t2, t3⟩, ⟨w1, w2, w3⟩, ⟨m1, m2, m3⟩⟩ := hr
  have hsort : ((List.range n).map tiedMatch ++ [a]).insertionSort
      (fun a b => a.binKey ≤ b.binKey) = (List.range n).map tiedMatch ++ [a] := by
    refine List.Pairwise.insertionSort_eq ?_
    rw [List.pairwise_append]
    refine ⟨?_, List.pairwise_singleton _ _, ?_⟩
    · rw [List.pairwise_map]
      refine List.pairwise_lt_range.imp fun {i j} hij => ?_
      exact Prod.Lex.toLex_le_toLex.2 (Or.inr ⟨rfl, by show i + 10 ≤ j + 10; omega⟩)
    · intro a ha b hb
      obtain ⟨i, _, rfl⟩ := List.mem_map.1 ha
      obtain rfl := List.mem_singleton.1 hb
      refine Prod.Lex.toLex_le_toLex.2 (Or.inl ?_)
      rw [w1]
      show lit 0.1 < lit 0.45
      decide +kernel
  have hmap : (limitPms n [a, b, c]).foldl binPut ([] : SMap ℕ PmBin) =
      [(0, ⟨(List.range n).map tiedMatch ++ [a], lit 0.45, 0⟩),
       (1, ⟨[b], lit 0.2, 0⟩), (2, ⟨[c], lit 0.15, 0⟩)] := by
    unfold limitPms
    rw [List.foldl_append, tied_bins, if_neg hn]
    have h1 : F64.flt (lit 0.45) (lit 0.1) = false := by decide +kernel
    have h2 : F64.flt 0 (lit 0.2) = true := by decide +kernel
    have h3 : F64.flt 0 (lit 0.15) = true := by decide +kernel
    generalize (List.range n).map tiedMatch = L
    simp [binPut, SMap.find, SMap.insert, t1, t2, t3, w1, w2, w3, h1, h2, h3]
  have h4 : (0 : F64) + lit 0.15 = lit 0.15 := by decide +kernel
  unfold pmBins
  rw [hmap]
  simp only [List.map_cons, List.map_nil, hsort, sumAfter, h4]
  rfl

theorem tied_add {sm n : ℕ} (h : n < sm) :
    (tiedArena sm n).add (tiedLeaf n) = some (tiedArena sm (n + 1), some n) := by
  have h1 : lit 0.45 < F64.maxValue := by decide +kernel
  rw [Arena.add_eq, if_neg (by show ¬ (sm ≤ n ∧ _); omega), if_pos (show (tiedArena sm n).totalLeaves < (tiedArena sm n).softMax from h)]
  have hlen : (tiedArena sm n).nodes.length = n := by simp [tiedArena]
  have hleaf : (tiedLeaf n).children.length = 0 := rfl
  have hrel : (tiedLeaf n).maxRelev = lit 0.45 := rfl
  unfold Arena.inserted
  rw [hlen, hleaf, hrel]
  congr 2
  unfold tiedArena
  rw [if_neg (Nat.succ_ne_zero n), if_neg (Nat.succ_ne_zero n), List.range_succ]
  by_cases hn : n = 0
  · subst hn
    simp [HMap.upsert, h1]
  · simp [HMap.upsert, hn]

/-- The tied phrase matches going in one after the other. -/
theorem tied_steps (sm : ℕ) (g : PmBin) (b c : Subquery) (hb : 7 &&& b.mask ≠ 0)
    (hc : 7 &&& c.mask ≠ 0) {mb mc : F64} {xb xc : F64} : ∀ n ≤ sm,
    ((List.range n).map tiedMatch).foldlM (stackStep g [⟨[b], mb, xb⟩, ⟨[c], mc, xc⟩] 0)
      (rootNode, Arena.new sm) = some (tiedRoot n, tiedArena sm n) := by
  intro n
  induction n with
  | zero => intro _; rfl
  | succ n ih =>
    intro hn
    rw [List.range_succ, List.map_append, List.foldlM_append, ih (by omega)]
    simp only [List.map_cons, List.map_nil, List.foldlM_cons, List.foldlM_nil, Option.bind_eq_bind,
      Option.bind_some, Option.pure_def, Option.bind_fun_some]
    have h1 : (0 : F64) + lit 0.45 = lit 0.45 := by decide +kernel
    have h2 : F64.flt 0 (lit 0.45) = true := by decide +kernel
    have h3 : F64.flt (lit 0.45) (lit 0.45) = false := by decide +kernel
    have hfull : (tiedArena sm n).isFull = false := by
      show decide (sm ≤ n) = false
      exact decide_eq_false (by omega)
    have hfit : (tiedRoot n).mask &&& (tiedMatch n).mask = 0 ∧
        (tiedRoot n).idx ∉ (tiedMatch n).nonOverlapping := ⟨Nat.zero_and _, by simp [tiedMatch]⟩
    have hch : childNode (tiedRoot n) (tiedMatch n) (lit 0.45) = tiedLeaf n := rfl
    have hw : (tiedMatch n).weight = lit 0.45 := rfl
    have hloop : ∀ a, stackLoop [⟨[b], mb, xb⟩, ⟨[c], mc, xc⟩] (lit 0.45) (tiedLeaf n, a) =
        some (tiedLeaf n, a) := by
      intro a
      have hm : (tiedLeaf n).mask = 7 := Nat.or_zero 7
      simp [stackLoop, hm, hb, hc]
    unfold stackStep
    simp only [hw, h1]
    rw [if_pos hfit, hfull, Bool.false_and, if_neg (by simp), hch, hloop]
    simp only [Option.bind_eq_bind, Option.bind_some, tied_add (show n < sm by omega)]
    congr 2
    unfold tiedRoot linkChild
    rw [if_neg (Nat.succ_ne_zero n), List.range_succ]
    have hmx : (tiedLeaf n).maxRelev = lit 0.45 := rfl
    by_cases h0 : n = 0
    · subst h0; simp [hmx, h2]
    · simp [hmx, h3, h0]

theorem limit_tree {n : ℕ} (hn : n ≠ 0) {a b c : Subquery} (hr : Rounded a b c) :
    stackableWith n (limitPms n [a, b, c]) = some ⟨tiedRoot n, tiedArena n n⟩ := by
  have hb : 7 &&& b.mask ≠ 0 := by
    rw [hr.masks.2.1]
    decide
  have hc : 7 &&& c.mask ≠ 0 := by
    rw [hr.masks.2.2]
    decide
  obtain ⟨w1, w2, w3⟩ := hr.weights
  unfold stackableWith
  rw [limit_bins hn hr, stackLoop_cons, List.foldlM_append, tied_steps n _ _ _ hb hc n (le_refl _)]
  simp only [List.foldlM_cons, List.foldlM_nil, Option.bind_eq_bind, Option.bind_some,
    Option.pure_def, Option.bind_fun_some]
  have hfull : (tiedArena n n).isFull = true := decide_eq_true (le_refl n)
  have hmin : (tiedArena n n).minRelev = lit 0.45 := if_neg hn
  have hskip : ∀ (g : PmBin) (rest : List PmBin) (pm : Subquery), 
      F64.flt (0 + pm.weight + g.maxAfter) (lit 0.45) = true →
      stackStep g rest 0 (tiedRoot n, tiedArena n n) pm =
        some (tiedRoot n, tiedArena n n) := by
    intro g rest pm h
    unfold stackStep
    simp only [hfull, hmin, h, Bool.and_self, if_true, ite_self]
  rw [hskip _ _ _ (show F64.flt (0 + a.weight + (lit 0.15 + lit 0.2)) (lit 0.45) = true by
    rw [w1]; decide +kernel)]
  simp only [Option.bind_some]
  rw [stackLoop_cons]
  simp only [List.foldlM_cons, List.foldlM_nil, Option.bind_eq_bind, Option.pure_def,
    Option.bind_fun_some]
  rw [hskip _ _ _ (show F64.flt (0 + b.weight + lit 0.15) (lit 0.45) = true by
    rw [w2]; decide +kernel)]
  simp only [Option.bind_some]
  rw [stackLoop_cons]
  simp only [List.foldlM_cons, List.foldlM_nil, Option.bind_eq_bind, Option.pure_def,
    Option.bind_fun_some]
  rw [hskip _ _ _ (show F64.flt (0 + c.weight + 0) (lit 0.45) = true by
    rw [w3]; decide +kernel)]
  rfl

theorem limit_missing (n : ℕ) :
    Missing (limitPms n roundedStack) ⟨tiedRoot n, tiedArena n n⟩ roundedStack := by
  have hmem : ∀ q ∈ roundedStack, q ∈ limitPms n roundedStack := fun q hq => List.mem_append.2 (Or.inr hq)
  refine ⟨⟨hmem, by decide +kernel, by decide +kernel, by decide +kernel, by decide +kernel⟩, ?_⟩
  have hpos : 0 < (roundedStack.map fun q => (limitPms n roundedStack).count q).prod := by
    have hp : ∀ l : List Subquery, (∀ q ∈ l, q ∈ limitPms n roundedStack) →
        0 < (l.map fun q => (limitPms n roundedStack).count q).prod := by
      intro l
      induction l with
      | nil => intro _; simp
      | cons q t ih =>
        intro hl
        rw [List.map_cons, List.prod_cons]
        exact Nat.mul_pos (List.count_pos_iff.2 (hl q (by simp))) (ih fun r hr => hl r (by simp [hr]))
    exact hp _ hmem
  refine lt_of_le_of_lt (le_of_eq ?_) hpos
  unfold roundedStack countPaths
  refine List.sum_eq_zero ?_
  intro x hx
  obtain ⟨c, _, rfl⟩ := List.mem_map.1 hx
  cases hg : (tiedArena n n).get c with
  | none => rfl
  | some m =>
    have hm := List.mem_of_getElem? (Arena.get_eq_some.1 hg)
    obtain ⟨i, _, he⟩ := List.mem_map.1 hm
    have : m.pm = some (tiedMatch i) := by rw [← show tiedLeaf i = m from (Prod.ext_iff.1 he).1]; rfl
    simp [this, tiedMatch]

theorem limit_leaf {n : ℕ} (hn : n ≠ 0) :
    LeafStack ⟨tiedRoot n, tiedArena n n⟩ [tiedMatch 0] := by
  refine ⟨[], tiedLeaf 0, ⟨⟨0, List.mem_range.2 (Nat.pos_of_ne_zero hn), ?_⟩, trivial⟩, rfl, rfl⟩
  rw [Arena.get_eq_some]
  simp [tiedArena, Nat.pos_of_ne_zero hn]

/-- C59 is false in floating point: two thousand phrase matches of weight 0.45 fill the tree, and a
stack of weights 0.1, 0.2 and 0.15, whose sum is the next number above 0.45, is missing:
it is estimated as 0.1 + (0.15 + 0.2), which is the number below 0.45. -/
theorem C59_false : ∃ pms t qs ls, stackable pms = some t ∧
    (∀ q ∈ pms, q.weight.IsFin ∧ 0 ≤ q.weight ∧ q.weight ≤ 1) ∧ Missing pms t qs ∧
    LeafStack t ls ∧ stackRelev ls < stackRelev qs := by
  have hn : leafSoftMax ≠ 0 := by unfold leafSoftMax; norm_num
  refine ⟨limitPms leafSoftMax roundedStack, _, roundedStack, [tiedMatch 0], limit_tree hn
    ⟨by decide, ⟨rfl, rfl, rfl⟩, by decide⟩, ?_,
    limit_missing _, limit_leaf hn, by decide +kernel⟩
  intro q hq
  rcases List.mem_append.1 hq with hq | hq
  · obtain ⟨i, _, rfl⟩ := List.mem_map.1 hq
    show (lit 0.45).IsFin ∧ 0 ≤ lit 0.45 ∧ lit 0.45 ≤ 1
    decide +kernel
  · revert q
    decide +kernel

/-- Phrase matches of two types, of weights that are multiples of 1/8. -/
def eighthPms : List Subquery :=
  [⟨emptyStore 0 6, 1, [], lit 0.25, 1, []⟩, ⟨emptyStore 0 6, 1, [], lit 0.125, 2, []⟩,
   ⟨emptyStore 1 8, 2, [], lit 0.5, 4, []⟩, ⟨emptyStore 1 8, 2, [], lit 0.125, 4, []⟩,
   ⟨emptyStore 1 8, 2, [], lit 0.75, 1, []⟩]

theorem eighth_isSome : (stackableWith 2 eighthPms).isSome = true := by decide +kernel

/-- With a limit of two, `eighthPms` has a missing stack, of relevance 0.125 + 0.5, and a complete
one, of relevance 0.75. -/
example : ∃ t, stackableWith 2 eighthPms = some t ∧
    Missing eighthPms t [eighthPms[1], eighthPms[2]] ∧ LeafStack t [eighthPms[4]] ∧
    (∀ q ∈ eighthPms, ∃ n : ℕ, n ≤ 2 ^ 3 ∧ q.weight = .fin (n / 2 ^ 3)) := by
  have hleaf : ((((stackableWith 2 eighthPms).get eighth_isSome).arena.get 5).map
      fun m => (m.isLeaf, m.pm)) = some (true, some eighthPms[4]) := by decide +kernel
  refine ⟨(stackableWith 2 eighthPms).get eighth_isSome, (Option.some_get _).symm,
    ⟨⟨by decide +kernel, by decide +kernel, by decide +kernel, by decide +kernel,
      by decide +kernel⟩, by decide +kernel⟩, ?_, ?_⟩
  · cases hg : ((stackableWith 2 eighthPms).get eighth_isSome).arena.get 5 with
    | none => rw [hg] at hleaf; cases hleaf
    | some m =>
      rw [hg] at hleaf
      obtain ⟨h1, h2⟩ := Prod.ext_iff.1 (Option.some.inj hleaf)
      exact ⟨[], m, ⟨⟨5, by decide +kernel, hg⟩, trivial⟩, h1, by simpa using h2⟩
  · have h : ∀ q ∈ eighthPms, q.weight = .fin ((2 : ℕ) / 2 ^ 3) ∨ q.weight = .fin ((1 : ℕ) / 2 ^ 3) ∨
        q.weight = .fin ((4 : ℕ) / 2 ^ 3) ∨ q.weight = .fin ((6 : ℕ) / 2 ^ 3) := by decide +kernel
    intro q hq
    rcases h q hq with h | h | h | h
    · exact ⟨2, by norm_num, h⟩
    · exact ⟨1, by norm_num, h⟩
    · exact ⟨4, by norm_num, h⟩
    · exact ⟨6, by norm_num, h⟩

end Carmen

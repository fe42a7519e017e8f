import Verif.Lemmas.PmBins
import Verif.Spec.Stack

/-!
# Paths in the stack tree
-/

namespace Carmen

/-- A chain of phrase matches the loops can follow. -/
def Chain : List PmBin → ℕ → ℕ → List Subquery → Prop
  | _, _, _, [] => True
  | bins, mask, idx, q :: qs => ∃ pre b rest, bins = pre ++ b :: rest ∧ q ∈ b.pms ∧
      mask &&& q.mask = 0 ∧ idx ∉ q.nonOverlapping ∧ Chain rest (q.mask ||| mask) q.idx qs

/-- The ghosts of a finished tree. -/
structure TreeGhost (pms : List Subquery) (t : StackTree) (K : List Ghost) : Prop where
  inv : GhostInv K
  nodes : K.map Ghost.node = t.arena.nodes.map Prod.fst
  root : NodeOk K ⟨t.root, 0, pmBins pms⟩
  same : SameNode rootNode t.root
  nodup : (K.flatMap (fun g => g.node.children) ++ t.root.children).Nodup
  thin : (∀ g ∈ K, Thin K g) ∧ Thin K ⟨t.root, 0, pmBins pms⟩
  full : ¬ t.arena.Full → (∀ g ∈ K, Complete K g) ∧ Complete K ⟨t.root, 0, pmBins pms⟩ ∧
    t.arena.nodes = K.map fun g => (g.node, true)

theorem stackable_ghost {sm : ℕ} {pms : List Subquery} {t : StackTree}
    (h : stackableWith sm pms = some t) : ∃ K, TreeGhost pms t K := by
  unfold stackableWith at h
  rw [Option.map_eq_some_iff] at h
  obtain ⟨r, hr, rfl⟩ := h
  have hf := stackLoop_follows (allBins := pmBins pms) (pre := []) hr rfl
  obtain ⟨K, ch, e⟩ := hf.ext [] (by intro i g hi; simp at hi) rfl
    ⟨fun c hc => absurd hc List.not_mem_nil, Or.inl rfl, flt_irrefl _⟩
  have hch : r.1.children = ch := by rw [e.children]; rfl
  refine ⟨K, by simpa using e.inv, by simpa using e.nodes, by simpa using e.node, hf.same, ?_, ?_, ?_⟩
  · show (K.flatMap _ ++ r.1.children).Nodup
    rw [hch]; exact e.nodup
  · obtain ⟨h1, h2⟩ := e.thin
    rw [List.nil_append] at h1 h2
    refine ⟨h1, ?_⟩
    unfold Thin
    show (labels K r.1.children).Sublist ((fitting r.1 (pmBins pms)).map some)
    rw [hch, fitting_congr hf.same]
    exact h2
  · intro hnf
    obtain ⟨h1, h2, h3⟩ := e.full hnf
    rw [List.nil_append] at h1 h2
    refine ⟨h1, ?_, by simpa [Arena.new] using h3⟩
    unfold Complete
    show labels K r.1.children = (fitting r.1 (pmBins pms)).map some
    rw [hch, h2, fitting_congr hf.same]

theorem get_ghost {K : List Ghost} {a : Arena} (h : K.map Ghost.node = a.nodes.map Prod.fst)
    {c : ℕ} {m : StackNode} (hc : a.get c = some m) : ∃ g, K[c]? = some g ∧ g.node = m := by
  unfold Arena.get at hc
  split at hc
  · rename_i n hn
    cases hc
    have := congrArg (fun l => l[c]?) h
    simp only [List.getElem?_map, hn, Option.map_some] at this
    rw [Option.map_eq_some_iff] at this
    exact this
  · cases hc

theorem get_of_alive {K : List Ghost} {a : Arena} (h : a.nodes = K.map fun g => (g.node, true))
    {c : ℕ} {g : Ghost} (hc : K[c]? = some g) : a.get c = some g.node := by
  unfold Arena.get
  rw [h, List.getElem?_map, hc]
  rfl

/-- Following a path gives a chain of phrase matches. -/
theorem path_chain {t : StackTree} {K : List Ghost} (hinv : GhostInv K)
    (hnodes : K.map Ghost.node = t.arena.nodes.map Prod.fst) {p : List StackNode} :
    ∀ {g : Ghost}, NodeOk K g → TreePath t g.node p →
    ∃ qs g', p.map StackNode.pm = qs.map some ∧ Chain g.bins g.node.mask g.node.idx qs ∧
      NodeOk K g' ∧ g'.node = p.getLast?.getD g.node ∧
      g'.relev = qs.foldl (fun r q => r + q.weight) g.relev ∧
      g'.node.mask = qs.foldl (fun m q => m ||| q.mask) g.node.mask ∧
      (∀ q ∈ g'.bins.flatMap PmBin.pms, q ∈ g.bins.flatMap PmBin.pms) ∧
      (∀ q ∈ qs, q ∈ g.bins.flatMap PmBin.pms) := by
  induction p with
  | nil =>
    intro g hg _
    exact ⟨[], g, rfl, trivial, hg, rfl, rfl, rfl, fun _ h => h, by simp⟩
  | cons m p ih =>
    intro g hg hp
    obtain ⟨⟨c, hc, hget⟩, hp⟩ := hp
    obtain ⟨gm, h1, rfl⟩ := get_ghost hnodes hget
    obtain ⟨g1, h2, pre, b, rest, pm, e1, e2, e3, e4, e5, e6, e7, e8, e9, e10⟩ := hg.child c hc
    rw [h1] at h2
    cases h2
    obtain ⟨qs, g', f1, f2, f3, f4, f5, f6, f7, f8⟩ := ih (hinv c gm h1).1 hp
    have hsub : ∀ q ∈ rest.flatMap PmBin.pms, q ∈ g.bins.flatMap PmBin.pms := by
      intro q hq
      rw [e1, List.flatMap_append, List.flatMap_cons]
      simp [hq]
    refine ⟨pm :: qs, g', ?_, ?_, f3, ?_, ?_, ?_, ?_, ?_⟩
    · rw [List.map_cons, List.map_cons, f1, e6]
    · refine ⟨pre, b, rest, e1, e2, e3.1, e3.2, ?_⟩
      rw [← e4, ← e7, ← e8]
      exact f2
    · rw [f4, List.getLast?_cons]
      rfl
    · rw [f5, e5]; rfl
    · rw [f6, e7, List.foldl_cons, Nat.lor_comm]
    · intro q hq
      exact hsub q (e4 ▸ f7 q hq)
    · intro q hq
      rcases List.mem_cons.1 hq with rfl | hq
      · exact List.mem_flatMap.2 ⟨b, by rw [e1]; simp, e2⟩
      · exact hsub q (e4 ▸ f8 q hq)

/-- The other fields of the last node of a path. -/
theorem path_fields {t : StackTree} {K : List Ghost} (hinv : GhostInv K)
    (hnodes : K.map Ghost.node = t.arena.nodes.map Prod.fst) {p : List StackNode} :
    ∀ {g : Ghost}, NodeOk K g → TreePath t g.node p → ∀ {qs : List Subquery},
    p.map StackNode.pm = qs.map some →
    (p.getLast?.getD g.node).bmask = g.node.bmask ++ qs.flatMap Subquery.nonOverlapping ∧
      List.Forall₂ (fun n q => n.idx = q.idx ∧ n.zoom = q.store.zoom) p qs := by
  induction p with
  | nil =>
    intro g hg _ qs hqs
    have : qs = [] := by simpa using hqs.symm
    subst this
    exact ⟨by simp, .nil⟩
  | cons m p ih =>
    intro g hg hp qs hqs
    obtain ⟨⟨c, hc, hget⟩, hp⟩ := hp
    obtain ⟨gm, h1, rfl⟩ := get_ghost hnodes hget
    obtain ⟨g1, h2, pre, b, rest, pm, e1, e2, e3, e4, e5, e6, e7, e8, e9, e10⟩ := hg.child c hc
    rw [h1] at h2
    cases h2
    cases qs with
    | nil => simp at hqs
    | cons q qs =>
      rw [List.map_cons, List.map_cons, List.cons.injEq, e6, Option.some.injEq] at hqs
      obtain ⟨rfl, hqs⟩ := hqs
      obtain ⟨f1, f2⟩ := ih (hinv c gm h1).1 hp hqs
      refine ⟨?_, .cons ⟨e8, e9.1⟩ f2⟩
      rw [List.getLast?_cons, Option.getD_some, f1, e9.2, List.flatMap_cons, List.append_assoc]

theorem Chain.mem {bins : List PmBin} {mask idx : ℕ} {qs : List Subquery}
    (h : Chain bins mask idx qs) : ∀ q ∈ qs, q ∈ bins.flatMap PmBin.pms := by
  induction qs generalizing bins mask idx with
  | nil => simp
  | cons x t ih =>
    obtain ⟨pre, b, rest, h1, h2, h3, h4, h5⟩ := h
    intro q hq
    rw [h1, List.flatMap_append, List.flatMap_cons]
    rcases List.mem_cons.1 hq with rfl | hq
    · simp [h2]
    · have := ih h5 q hq
      simp only [List.mem_append]
      tauto

theorem or_and_eq_zero {a b c : ℕ} : (a ||| b) &&& c = 0 ↔ a &&& c = 0 ∧ b &&& c = 0 := by
  rw [Nat.and_or_distrib_right]
  exact Nat.or_eq_zero_iff

/-- A chain, said without the bins. -/
theorem chain_iff {bins : List PmBin} (hb : TypedBins bins) {mask idx : ℕ} {qs : List Subquery} :
    Chain bins mask idx qs ↔ (∀ q ∈ qs, q ∈ bins.flatMap PmBin.pms) ∧
      (qs.Pairwise fun a b => a.store.typeId < b.store.typeId) ∧
      (qs.Pairwise fun a b => a.mask &&& b.mask = 0) ∧ (∀ q ∈ qs, mask &&& q.mask = 0) ∧
      (qs.IsChain fun a b => a.idx ∉ b.nonOverlapping) ∧
      (∀ q ∈ qs.head?, idx ∉ q.nonOverlapping) := by
  induction qs generalizing bins mask idx with
  | nil => simp [Chain]
  | cons x t ih =>
    constructor
    · rintro ⟨pre, b, rest, h1, h2, h3, h4, h5⟩
      have hb' := hb
      rw [h1] at hb'
      have hbr : TypedBins rest := TypedBins.tail (pre := pre ++ [b]) (by simpa using hb')
      obtain ⟨i1, i2, i3, i4, i5, i6⟩ := (ih hbr).1 h5
      refine ⟨?_, ?_, ?_, ?_, ?_, ?_⟩
      · exact Chain.mem (mask := mask) (idx := idx) ⟨pre, b, rest, h1, h2, h3, h4, h5⟩
      · refine List.pairwise_cons.2 ⟨?_, i2⟩
        intro y hy
        obtain ⟨c, hc, hyc⟩ := List.mem_flatMap.1 (i1 y hy)
        have := (List.pairwise_append.1 hb'.asc).2.1
        exact (List.pairwise_cons.1 this).1 c hc x h2 y hyc
      · exact List.pairwise_cons.2 ⟨fun y hy => (or_and_eq_zero.1 (i4 y hy)).1, i3⟩
      · intro q hq
        rcases List.mem_cons.1 hq with rfl | hq
        · exact h3
        · exact (or_and_eq_zero.1 (i4 q hq)).2
      · cases t with
        | nil => exact List.isChain_singleton _
        | cons y t => exact List.isChain_cons_cons.2 ⟨i6 y rfl, i5⟩
      · intro q hq
        cases hq
        exact h4
    · rintro ⟨h1, h2, h3, h4, h5, h6⟩
      obtain ⟨b, hbm, hxb⟩ := List.mem_flatMap.1 (h1 x (by simp))
      obtain ⟨pre, rest, hsplit⟩ := List.append_of_mem hbm
      have hb' := hb
      rw [hsplit] at hb'
      have hbr : TypedBins rest := TypedBins.tail (pre := pre ++ [b]) (by simpa using hb')
      refine ⟨pre, b, rest, hsplit, hxb, h4 x (by simp), h6 x rfl, (ih hbr).2 ?_⟩
      refine ⟨?_, (List.pairwise_cons.1 h2).2, (List.pairwise_cons.1 h3).2, ?_, ?_, ?_⟩
      · intro q hq
        have hlt := (List.pairwise_cons.1 h2).1 q hq
        obtain ⟨c, hc, hqc⟩ := List.mem_flatMap.1 (h1 q (by simp [hq]))
        rw [hsplit] at hc
        rcases List.mem_append.1 hc with hc | hc
        · have := (List.pairwise_append.1 hb'.asc).2.2 c hc b (by simp) q hqc x hxb
          omega
        · rcases List.mem_cons.1 hc with rfl | hc
          · have := hb'.same c (by simp) q hqc x hxb
            omega
          · exact List.mem_flatMap.2 ⟨c, hc, hqc⟩
      · intro q hq
        exact or_and_eq_zero.2 ⟨(List.pairwise_cons.1 h3).1 q hq, h4 q (by simp [hq])⟩
      · cases t with
        | nil => exact List.isChain_nil
        | cons y t => exact (List.isChain_cons_cons.1 h5).2
      · intro q hq
        cases t with
        | nil => cases hq
        | cons y t =>
          cases hq
          exact (List.isChain_cons_cons.1 h5).1

theorem chain_iff_isStack (pms qs : List Subquery) :
    Chain (pmBins pms) 0 129 qs ↔ IsStack pms qs := by
  rw [chain_iff (pmBins_typed pms)]
  constructor
  · rintro ⟨h1, h2, h3, _, h5, h6⟩
    exact ⟨fun q hq => (pmBins_perm pms).mem_iff.1 (h1 q hq), h2, h3, h5, h6⟩
  · rintro ⟨h1, h2, h3, h5, h6⟩
    exact ⟨fun q hq => (pmBins_perm pms).mem_iff.2 (h1 q hq), h2, h3, fun q _ => Nat.zero_and _,
      h5, h6⟩

/-! ## Counting paths -/

theorem sum_labels {K : List Ghost} {q : Subquery} {V : ℕ} {F : ℕ → ℕ} {cs : List ℕ}
    (h : ∀ c ∈ cs, F c = if (K[c]?).bind (fun g => g.node.pm) = some q then V else 0) :
    (cs.map F).sum = (labels K cs).count (some q) * V := by
  induction cs with
  | nil => simp [labels]
  | cons c t ih =>
    have h1 := h c (by simp)
    have h2 := ih fun d hd => h d (by simp [hd])
    rw [List.map_cons, List.sum_cons, h2, h1]
    unfold labels
    rw [List.map_cons, List.count_cons]
    by_cases hc : (K[c]?).bind (fun g => g.node.pm) = some q
    · simp only [hc, if_true, beq_self_eq_true]
      rw [Nat.add_mul, Nat.one_mul, Nat.add_comm]
    · simp [hc]

theorem count_fitting {n : StackNode} {bins : List PmBin} {q : Subquery} :
    (fitting n bins).count q = if FitsBelow n q then (bins.flatMap PmBin.pms).count q else 0 := by
  have : fitting n bins = (bins.flatMap PmBin.pms).filter fun pm => FitsBelow n pm := by
    unfold fitting
    rw [List.filter_flatMap]
  rw [this]
  by_cases h : FitsBelow n q
  · rw [if_pos h, List.count_filter (by simpa using h)]
  · rw [if_neg h, List.count_eq_zero]
    intro hm
    exact h (by simpa using (List.mem_filter.1 hm).2)

open Classical in
theorem countPaths_eq {t : StackTree} {K : List Ghost} (hinv : GhostInv K)
    (hcomp : ∀ g ∈ K, Complete K g) (halive : t.arena.nodes = K.map fun g => (g.node, true))
    {qs : List Subquery} : ∀ {g : Ghost}, NodeOk K g → Complete K g → TypedBins g.bins →
    countPaths t g.node qs = if Chain g.bins g.node.mask g.node.idx qs then
      (qs.map fun q => (g.bins.flatMap PmBin.pms).count q).prod else 0 := by
  induction qs with
  | nil => intro g _ _ _; simp [countPaths, Chain]
  | cons q qs ih =>
    intro g hg hc hb
    by_cases hq : q ∈ g.bins.flatMap PmBin.pms ∧ FitsBelow g.node q
    · obtain ⟨hq1, hq2⟩ := hq
      obtain ⟨b, hbm, hqb⟩ := List.mem_flatMap.1 hq1
      obtain ⟨pre, rest, hsplit⟩ := List.append_of_mem hbm
      have hb' := hb
      rw [hsplit] at hb'
      have hbr : TypedBins rest := TypedBins.tail (pre := pre ++ [b]) (by simpa using hb')
      set V : ℕ := if Chain rest (q.mask ||| g.node.mask) q.idx qs then
        (qs.map fun q => (rest.flatMap PmBin.pms).count q).prod else 0 with hV
      have hsum : countPaths t g.node (q :: qs) = (labels K g.node.children).count (some q) * V := by
        unfold countPaths
        refine sum_labels ?_
        intro c hcc
        obtain ⟨g', e0, pre', b', rest', pm, e1, e2, e3, e4, e5, e6, e7, e8, e9, e10⟩ :=
          hg.child c hcc
        rw [get_of_alive halive e0, e0]
        simp only [Option.bind_some]
        by_cases hpm : g'.node.pm = some q
        · rw [if_pos hpm, if_pos hpm]
          have : pm = q := by rw [e6] at hpm; exact Option.some.inj hpm
          subst this
          obtain ⟨_, hrest⟩ := hb.unique e1 hsplit e2 hqb
          have hmem : g' ∈ K := List.mem_of_getElem? e0
          have hbins : g'.bins = rest := e4.trans hrest
          rw [ih (hinv c g' e0).1 (hcomp g' hmem) (by rw [hbins]; exact hbr), hbins, e7, e8]
        · rw [if_neg hpm, if_neg hpm]
      rw [hsum, hc, List.count_map_of_injective _ _ (Option.some_injective _), count_fitting,
        if_pos hq2]
      have hchain : Chain g.bins g.node.mask g.node.idx (q :: qs) ↔
          Chain rest (q.mask ||| g.node.mask) q.idx qs := by
        constructor
        · rintro ⟨pre', b', rest', h1, h2, _, _, h5⟩
          obtain ⟨_, hrest⟩ := hb.unique h1 hsplit h2 hqb
          rw [← hrest]; exact h5
        · intro h
          exact ⟨pre, b, rest, hsplit, hqb, hq2.1, hq2.2, h⟩
      by_cases hch : Chain rest (q.mask ||| g.node.mask) q.idx qs
      · rw [if_pos (hchain.2 hch), hV, if_pos hch, List.map_cons, List.prod_cons]
        congr 2
        refine List.map_congr_left fun r hr => ?_
        have := TypedBins.count_suffix (pre := pre ++ [b]) (bins := rest) (by simpa using hb')
          (hch.mem r hr)
        rw [hsplit, ← this]
        simp
      · rw [if_neg fun h => hch (hchain.1 h), hV, if_neg hch, Nat.mul_zero]
    · have hno : ¬ Chain g.bins g.node.mask g.node.idx (q :: qs) := by
        rintro ⟨pre', b', rest', h1, h2, h3, h4, h5⟩
        exact hq ⟨List.mem_flatMap.2 ⟨b', by rw [h1]; simp, h2⟩, h3, h4⟩
      have hsum : countPaths t g.node (q :: qs) = (labels K g.node.children).count (some q) * 0 := by
        unfold countPaths
        refine sum_labels ?_
        intro c hcc
        obtain ⟨g', e0, pre', b', rest', pm, e1, e2, e3, e4, e5, e6, e7, e8, e9, e10⟩ :=
          hg.child c hcc
        rw [get_of_alive halive e0, e0]
        simp only [Option.bind_some]
        by_cases hpm : g'.node.pm = some q
        · have : pm = q := by rw [e6] at hpm; exact Option.some.inj hpm
          subst this
          exact absurd ⟨List.mem_flatMap.2 ⟨b', by rw [e1]; simp, e2⟩, e3⟩ hq
        · rw [if_neg hpm, if_neg hpm]
      rw [hsum, Nat.mul_zero, if_neg hno]

/-! ## Maximal relevance -/

theorem add_ne_nan {a b : F64} (ha : a ≠ .nan) (hb : b.IsFin) : a + b ≠ .nan := by
  rw [F64.add_def]
  obtain ⟨q, rfl⟩ : ∃ q, b = .fin q := by
    cases b with
    | nan => exact absurd hb id
    | inf s => exact absurd hb id
    | fin q => exact ⟨q, rfl⟩
  cases a with
  | nan => exact absurd rfl ha
  | inf s => exact F64.noConfusion
  | fin p =>
    show F64.ofRat _ ≠ _
    unfold F64.ofRat F64.ofRounded
    split_ifs <;> exact F64.noConfusion

theorem foldl_ne_nan {qs : List Subquery} {r : F64} (hr : r ≠ .nan)
    (hq : ∀ q ∈ qs, q.weight.IsFin) : qs.foldl (fun r q => r + q.weight) r ≠ .nan := by
  induction qs generalizing r with
  | nil => exact hr
  | cons q t ih =>
    exact ih (add_ne_nan hr (hq q (by simp))) fun x hx => hq x (by simp [hx])

theorem max_ne_nan {K : List Ghost} (hinv : GhostInv K) : ∀ (n : ℕ) (g : Ghost), NodeOk K g →
    (∀ c ∈ g.node.children, c < n) → g.relev ≠ .nan →
    (∀ q ∈ g.bins.flatMap PmBin.pms, q.weight.IsFin) → g.node.maxRelev ≠ .nan := by
  intro n
  induction n using Nat.strong_induction_on with
  | _ n ih =>
    intro g hg hlt hr hw
    rcases hg.attained with h | ⟨c, hc, g', h1, h2⟩
    · rw [h]; exact hr
    · rw [h2]
      obtain ⟨g1, e0, pre, b, rest, pm, e1, e2, e3, e4, e5, _⟩ := hg.child c hc
      rw [h1] at e0
      cases e0
      obtain ⟨k1, k2⟩ := hinv c g' h1
      refine ih c (hlt c hc) g' k1 k2 ?_ ?_
      · rw [e5]
        exact add_ne_nan hr (hw pm (List.mem_flatMap.2 ⟨b, by rw [e1]; simp, e2⟩))
      · intro q hq
        refine hw q ?_
        rw [e1, List.flatMap_append, List.flatMap_cons]
        rw [e4] at hq
        simp [hq]

theorem le_of_flt_false {a b : F64} (ha : a ≠ .nan) (hb : b ≠ .nan) (h : F64.flt a b = false) :
    b ≤ a := by
  unfold F64.flt at h
  rw [decide_eq_false_iff_not] at h
  exact not_lt.1 fun hlt => h ⟨ha, hb, hlt⟩

/-- The maximal relevance never grows on the way down, and bounds the path relevance. -/
theorem path_max {t : StackTree} {K : List Ghost} (hinv : GhostInv K)
    (hnodes : K.map Ghost.node = t.arena.nodes.map Prod.fst) {p : List StackNode} :
    ∀ {g : Ghost}, NodeOk K g → (∀ c ∈ g.node.children, c < K.length) → g.relev ≠ .nan →
    (∀ q ∈ g.bins.flatMap PmBin.pms, q.weight.IsFin) → TreePath t g.node p →
    ∀ qs : List Subquery, p.map StackNode.pm = qs.map some →
    qs.foldl (fun r q => r + q.weight) g.relev ≤ g.node.maxRelev := by
  induction p with
  | nil =>
    intro g hg hlt hr hw _ qs hqs
    have : qs = [] := by
      cases qs with
      | nil => rfl
      | cons x t => simp at hqs
    subst this
    exact le_of_flt_false (max_ne_nan hinv _ g hg hlt hr hw) hr hg.bound
  | cons m p ih =>
    intro g hg hlt hr hw hp qs hqs
    obtain ⟨⟨c, hc, hget⟩, hp⟩ := hp
    obtain ⟨gm, h1, rfl⟩ := get_ghost hnodes hget
    obtain ⟨g1, h2, pre, b, rest, pm, e1, e2, e3, e4, e5, e6, e7, e8, e9, e10⟩ := hg.child c hc
    rw [h1] at h2
    cases h2
    have hpm : pm ∈ g.bins.flatMap PmBin.pms := List.mem_flatMap.2 ⟨b, by rw [e1]; simp, e2⟩
    cases qs with
    | nil => simp at hqs
    | cons q qs =>
      rw [List.map_cons, List.map_cons, List.cons.injEq, e6, Option.some.injEq] at hqs
      obtain ⟨rfl, hqs⟩ := hqs
      have hr' : gm.relev ≠ .nan := by rw [e5]; exact add_ne_nan hr (hw _ hpm)
      have hw' : ∀ q ∈ gm.bins.flatMap PmBin.pms, q.weight.IsFin := by
        intro q hq
        refine hw q ?_
        rw [e1, List.flatMap_append, List.flatMap_cons]
        rw [e4] at hq
        simp [hq]
      obtain ⟨k1, k2⟩ := hinv c gm h1
      have hclt := hlt c hc
      have hlt' : ∀ d ∈ gm.node.children, d < K.length := fun d hd => by have := k2 d hd; omega
      have := ih k1 hlt' hr' hw' hp qs hqs
      rw [List.foldl_cons, ← e5]
      exact le_trans this (le_of_flt_false (max_ne_nan hinv _ g hg hlt hr hw)
        (max_ne_nan hinv _ gm k1 hlt' hr' hw') e10)

/-- Without culling the maximal relevance is that of a stack. -/
theorem path_attained {t : StackTree} {K : List Ghost} (hinv : GhostInv K)
    (halive : t.arena.nodes = K.map fun g => (g.node, true)) : ∀ (n : ℕ) (g : Ghost), NodeOk K g →
    (∀ c ∈ g.node.children, c < n) → ∃ (p : List StackNode) (qs : List Subquery), TreePath t g.node p ∧
      p.map StackNode.pm = qs.map some ∧
      qs.foldl (fun r q => r + q.weight) g.relev = g.node.maxRelev := by
  intro n
  induction n using Nat.strong_induction_on with
  | _ n ih =>
    intro g hg hlt
    rcases hg.attained with h | ⟨c, hc, g', h1, h2⟩
    · exact ⟨[], [], trivial, rfl, h.symm⟩
    · obtain ⟨g1, e0, pre, b, rest, pm, e1, e2, e3, e4, e5, e6, _⟩ := hg.child c hc
      rw [h1] at e0
      cases e0
      obtain ⟨k1, k2⟩ := hinv c g' h1
      obtain ⟨p, qs, f1, f2, f3⟩ := ih c (hlt c hc) g' k1 k2
      refine ⟨g'.node :: p, pm :: qs, ⟨⟨c, hc, get_of_alive halive h1⟩, f1⟩, ?_, ?_⟩
      · rw [List.map_cons, List.map_cons, f2, e6]
      · rw [List.foldl_cons, ← e5, f3, h2]

theorem treePath_append {t : StackTree} {p q : List StackNode} {n : StackNode} :
    TreePath t n (p ++ q) ↔ TreePath t n p ∧ TreePath t (p.getLast?.getD n) q := by
  induction p generalizing n with
  | nil => simp [TreePath]
  | cons m p ih =>
    rw [List.cons_append]
    show (_ ∧ TreePath t m (p ++ q)) ↔ (_ ∧ TreePath t m p) ∧ _
    rw [ih, List.getLast?_cons]
    simp only [Option.getD_some]
    tauto

end Carmen

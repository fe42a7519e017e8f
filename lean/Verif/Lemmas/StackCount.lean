import Verif.Lemmas.StackPath
import Verif.Spec.EndToEnd

/-!
# The nodes of a stack tree below the limit
-/

namespace Carmen
open Spec

/-- All stacks that can go below a node, in the order of the loops: after those below them. -/
def stacksBelow : List PmBin → ℕ → ℕ → List (List Subquery)
  | [], _, _ => []
  | b :: rest, mask, idx =>
    b.pms.flatMap (fun q => if mask &&& q.mask = 0 ∧ idx ∉ q.nonOverlapping then
      (stacksBelow rest (q.mask ||| mask) q.idx).map (q :: ·) ++ [[q]] else []) ++
      stacksBelow rest mask idx

/-- Those nothing can go below. -/
def leavesBelow : List PmBin → ℕ → ℕ → List (List Subquery)
  | [], _, _ => []
  | b :: rest, mask, idx =>
    b.pms.flatMap (fun q => if mask &&& q.mask = 0 ∧ idx ∉ q.nonOverlapping then
      if stacksBelow rest (q.mask ||| mask) q.idx = [] then [[q]]
      else (leavesBelow rest (q.mask ||| mask) q.idx).map (q :: ·) else []) ++
      leavesBelow rest mask idx

/-- What the loops do to the nodes if the limit is not reached. -/
structure Adds (below leaves : List (List Subquery)) (st st' : StackNode × Arena) : Prop where
  same : SameNode st.1 st'.1
  softMax : st'.2.softMax = st.2.softMax
  total : st'.2.totalLeaves = st.2.totalLeaves + leaves.length
  nodes : st'.2.nodes.map (fun p => (p.1.pm, p.2)) = st.2.nodes.map (fun p => (p.1.pm, p.2)) ++
    below.map fun qs => (qs.getLast?, true)
  children : st'.1.children = [] ↔ st.1.children = [] ∧ below = []

theorem Adds.refl (st : StackNode × Arena) : Adds [] [] st st :=
  ⟨SameNode.refl _, rfl, rfl, by simp, by simp⟩

theorem Adds.trans {s1 s2 l1 l2 : List (List Subquery)} {a b c : StackNode × Arena}
    (h1 : Adds s1 l1 a b) (h2 : Adds s2 l2 b c) : Adds (s1 ++ s2) (l1 ++ l2) a c := by
  refine ⟨h1.same.trans h2.same, h2.softMax.trans h1.softMax, ?_, ?_, ?_⟩
  · rw [h2.total, h1.total, List.length_append, Nat.add_assoc]
  · rw [h2.nodes, h1.nodes, List.map_append, List.append_assoc]
  · rw [h2.children, h1.children, List.append_eq_nil_iff, and_assoc]

theorem Arena.add_room {a a' : Arena} {n : StackNode} {r : Option ℕ}
    (h : a.add n = some (a', r)) (hr : a.totalLeaves < a.softMax) :
    r = some a.nodes.length ∧ a'.nodes = a.nodes ++ [(n, true)] ∧ a'.softMax = a.softMax ∧
      a'.totalLeaves = a.totalLeaves + if n.children.length = 0 then 1 else 0 := by
  unfold Arena.add at h
  rw [if_neg (by omega)] at h
  simp only at h
  rw [if_pos hr] at h
  cases h
  exact ⟨rfl, rfl, rfl, rfl⟩

theorem stackStep_adds {g : PmBin} {rest : List PmBin} {relev : F64}
    {st st' : StackNode × Arena} {pm : Subquery}
    (ih : ∀ {relev : F64} {st st' : StackNode × Arena}, stackLoop rest relev st = some st' →
      st.2.totalLeaves + (leavesBelow rest st.1.mask st.1.idx).length < st.2.softMax →
      Adds (stacksBelow rest st.1.mask st.1.idx) (leavesBelow rest st.1.mask st.1.idx) st st')
    (h : stackStep g rest relev st pm = some st') {leaves : List (List Subquery)}
    (hl : leaves = if st.1.mask &&& pm.mask = 0 ∧ st.1.idx ∉ pm.nonOverlapping then
      if stacksBelow rest (pm.mask ||| st.1.mask) pm.idx = [] then [[pm]]
      else (leavesBelow rest (pm.mask ||| st.1.mask) pm.idx).map (pm :: ·) else [])
    (hroom : st.2.totalLeaves + leaves.length < st.2.softMax) :
    Adds (if st.1.mask &&& pm.mask = 0 ∧ st.1.idx ∉ pm.nonOverlapping then
      (stacksBelow rest (pm.mask ||| st.1.mask) pm.idx).map (pm :: ·) ++ [[pm]] else [])
      leaves st st' := by
  rcases stackStep_cases h with ⟨hfit, rfl⟩ | ⟨hfit, hfull, rfl⟩ | ⟨hfit, r, added, hr, hadd, rfl⟩
  · unfold FitsBelow at hfit
    rw [hl, if_neg hfit, if_neg hfit]
    exact Adds.refl _
  · unfold Arena.isFull at hfull
    rw [decide_eq_true_eq] at hfull
    omega
  · unfold FitsBelow at hfit
    rw [if_pos hfit] at hl ⊢
    have hlv : stacksBelow rest (pm.mask ||| st.1.mask) pm.idx = [] →
        leavesBelow rest (pm.mask ||| st.1.mask) pm.idx = [] := by
      intro h0
      have key : ∀ (bins : List PmBin) (m i : ℕ), stacksBelow bins m i = [] →
          leavesBelow bins m i = [] := by
        intro bins
        induction bins with
        | nil => intro m i _; rfl
        | cons b t iht =>
          intro m i hb
          rw [stacksBelow, List.append_eq_nil_iff] at hb
          rw [leavesBelow, iht m i hb.2, List.append_nil, List.flatMap_eq_nil_iff]
          intro q hq
          have := List.flatMap_eq_nil_iff.1 hb.1 q hq
          split_ifs at this with hc
          · simp at this
          · rw [if_neg hc]
      exact key _ _ _ h0
    have hlen : (leavesBelow rest (pm.mask ||| st.1.mask) pm.idx).length ≤ leaves.length := by
      rw [hl]
      split_ifs with h0
      · rw [hlv h0]; simp
      · simp
    have hc := ih hr (by simp only [childNode]; omega)
    obtain ⟨a', ix⟩ := added
    have htot := hc.total
    have hsm := hc.softMax
    simp only [childNode] at htot hsm
    have hroom2 : r.2.totalLeaves < r.2.softMax := by omega
    obtain ⟨e1, e2, e3, e4⟩ := Arena.add_room hadd hroom2
    subst e1
    refine ⟨SameNode.refl _, e3.trans hsm, ?_, ?_, ?_⟩
    · show a'.totalLeaves = _
      rw [e4, htot, hl]
      have hch := hc.children
      simp only [childNode, true_and] at hch
      by_cases h0 : stacksBelow rest (pm.mask ||| st.1.mask) pm.idx = []
      · rw [if_pos h0, hch.2 h0, hlv h0]
        simp
      · rw [if_neg h0, if_neg (by
          rw [List.length_eq_zero_iff]
          exact fun hcc => h0 (hch.1 hcc))]
        simp
    · show a'.nodes.map _ = _
      have hn := hc.nodes
      simp only [childNode] at hn
      have hpm : r.1.pm = some pm := hc.same.1
      rw [e2, List.map_append, hn, List.append_assoc]
      congr 1
      rw [List.map_append, List.map_map]
      congr 1
      · refine List.map_congr_left ?_
        intro qs hqs
        have : qs ≠ [] := by
          have key : ∀ (bins : List PmBin) (m i : ℕ), ∀ qs ∈ stacksBelow bins m i, qs ≠ [] := by
            intro bins
            induction bins with
            | nil => intro m i qs h; cases h
            | cons b t iht =>
              intro m i qs h
              rw [stacksBelow, List.mem_append, List.mem_flatMap] at h
              rcases h with ⟨q, _, h⟩ | h
              · split_ifs at h
                · rw [List.mem_append, List.mem_map, List.mem_singleton] at h
                  rcases h with ⟨_, _, rfl⟩ | rfl <;> simp
                · cases h
              · exact iht m i qs h
          exact key _ _ _ _ hqs
        obtain ⟨x, t, rfl⟩ := List.exists_cons_of_ne_nil this
        simp
      · simp [hpm]
    · show (linkChild st.1 r.1 (some _)).children = [] ↔ _
      simp [linkChild]

theorem stackLoop_adds {bins : List PmBin} : ∀ {relev : F64} {st st' : StackNode × Arena},
    stackLoop bins relev st = some st' →
    st.2.totalLeaves + (leavesBelow bins st.1.mask st.1.idx).length < st.2.softMax →
    Adds (stacksBelow bins st.1.mask st.1.idx) (leavesBelow bins st.1.mask st.1.idx) st st' := by
  induction bins with
  | nil =>
    intro relev st st' h _
    cases h
    exact Adds.refl _
  | cons g rest ih =>
    intro relev st st' h hroom
    rw [stackLoop_cons] at h
    obtain ⟨stm, hm, h⟩ := Option.bind_eq_some_iff.1 h
    have hfold : ∀ (l : List Subquery) (b b' : StackNode × Arena), SameNode st.1 b.1 →
        l.foldlM (stackStep g rest relev) b = some b' →
        b.2.totalLeaves + (l.flatMap (fun q =>
          if st.1.mask &&& q.mask = 0 ∧ st.1.idx ∉ q.nonOverlapping then
          if stacksBelow rest (q.mask ||| st.1.mask) q.idx = [] then [[q]]
          else (leavesBelow rest (q.mask ||| st.1.mask) q.idx).map (q :: ·)
          else [])).length < b.2.softMax →
        Adds (l.flatMap (fun q => if st.1.mask &&& q.mask = 0 ∧ st.1.idx ∉ q.nonOverlapping then
          (stacksBelow rest (q.mask ||| st.1.mask) q.idx).map (q :: ·) ++ [[q]] else []))
          (l.flatMap (fun q => if st.1.mask &&& q.mask = 0 ∧ st.1.idx ∉ q.nonOverlapping then
          if stacksBelow rest (q.mask ||| st.1.mask) q.idx = [] then [[q]]
          else (leavesBelow rest (q.mask ||| st.1.mask) q.idx).map (q :: ·) else [])) b b' := by
      intro l
      induction l with
      | nil =>
        intro b b' _ hb _
        rw [List.foldlM_nil] at hb
        cases hb
        exact Adds.refl _
      | cons pm t iht =>
        intro b b' hs hb hr
        rw [List.foldlM_cons] at hb
        obtain ⟨b1, hb1, hb⟩ := Option.bind_eq_some_iff.1 hb
        rw [List.flatMap_cons, List.length_append] at hr
        have hmask := hs.2.1
        have hidx := hs.2.2.1
        have f1 := stackStep_adds (fun h hr => ih h hr) hb1 (leaves := _) rfl (by
          rw [hmask, hidx]
          omega)
        rw [hmask, hidx] at f1
        have f2 := iht b1 b' (hs.trans f1.same) hb (by
          rw [f1.total, f1.softMax]
          omega)
        rw [List.flatMap_cons, List.flatMap_cons]
        exact f1.trans f2
    rw [leavesBelow, List.length_append] at hroom
    have f1 := hfold g.pms st stm (SameNode.refl _) hm (by omega)
    have f2 := ih h (by
      rw [f1.total, f1.softMax, f1.same.2.1, f1.same.2.2.1]
      omega)
    rw [f1.same.2.1, f1.same.2.2.1] at f2
    exact f1.trans f2

/-! ## What they are -/

theorem stacksBelow_chain {bins : List PmBin} : ∀ {mask idx : ℕ},
    ∀ qs ∈ stacksBelow bins mask idx, qs ≠ [] ∧ Chain bins mask idx qs := by
  induction bins with
  | nil => intro mask idx qs h; cases h
  | cons b rest ih =>
    intro mask idx qs h
    rw [stacksBelow, List.mem_append, List.mem_flatMap] at h
    rcases h with ⟨q, hq, h⟩ | h
    · split_ifs at h with hc
      · rw [List.mem_append, List.mem_map, List.mem_singleton] at h
        rcases h with ⟨t, ht, rfl⟩ | rfl
        · exact ⟨by simp, [], b, rest, rfl, hq, hc.1, hc.2, (ih t ht).2⟩
        · exact ⟨by simp, [], b, rest, rfl, hq, hc.1, hc.2, trivial⟩
      · cases h
    · obtain ⟨h1, h2⟩ := ih qs h
      refine ⟨h1, ?_⟩
      cases qs with
      | nil => trivial
      | cons x t =>
        obtain ⟨pre, b', rest', e, h⟩ := h2
        exact ⟨b :: pre, b', rest', by rw [e]; rfl, h⟩

theorem stacksBelow_complete {bins : List PmBin} : ∀ {mask idx : ℕ} {qs : List Subquery},
    qs ≠ [] → Chain bins mask idx qs → qs ∈ stacksBelow bins mask idx := by
  induction bins with
  | nil =>
    intro mask idx qs hne h
    obtain ⟨x, t, rfl⟩ := List.exists_cons_of_ne_nil hne
    obtain ⟨pre, b', rest', e, _⟩ := h
    simp at e
  | cons b rest ih =>
    intro mask idx qs hne h
    obtain ⟨x, t, rfl⟩ := List.exists_cons_of_ne_nil hne
    obtain ⟨pre, b', rest', e, h1, h2, h3, h4⟩ := h
    rw [stacksBelow, List.mem_append]
    cases pre with
    | nil =>
      cases e
      left
      rw [List.mem_flatMap]
      refine ⟨x, h1, ?_⟩
      rw [if_pos ⟨h2, h3⟩, List.mem_append]
      cases t with
      | nil => right; simp
      | cons y t =>
        left
        exact List.mem_map.2 ⟨_, ih (by simp) h4, rfl⟩
    | cons c pre =>
      cases e
      exact Or.inr (ih (by simp) ⟨pre, b', rest', rfl, h1, h2, h3, h4⟩)

theorem leavesBelow_sub {bins : List PmBin} : ∀ {mask idx : ℕ},
    (leavesBelow bins mask idx).Sublist (stacksBelow bins mask idx) := by
  induction bins with
  | nil => intro mask idx; exact List.Sublist.refl _
  | cons b rest ih =>
    intro mask idx
    rw [leavesBelow, stacksBelow]
    refine List.Sublist.append ?_ ih
    generalize b.pms = l
    induction l with
    | nil => exact List.Sublist.refl _
    | cons q t iht =>
      rw [List.flatMap_cons, List.flatMap_cons]
      refine List.Sublist.append ?_ iht
      split_ifs with h1 h2
      · rw [h2]; exact List.Sublist.refl _
      · exact ((ih).map _).trans (List.sublist_append_left _ _)
      · exact List.Sublist.refl _

/-- Nothing can go below the leaves. -/
theorem leavesBelow_last {bins : List PmBin} : ∀ {mask idx : ℕ},
    ∀ qs ∈ leavesBelow bins mask idx, TypedBins bins → ∀ q, ¬ Chain bins mask idx (qs ++ [q]) := by
  induction bins with
  | nil => intro mask idx qs h; cases h
  | cons b rest ih =>
    intro mask idx qs h hb q hch
    have hrest : TypedBins rest := TypedBins.tail (pre := [b]) hb
    rw [leavesBelow, List.mem_append, List.mem_flatMap] at h
    rcases h with ⟨x, hx, h⟩ | h
    · have key : ∀ t, Chain (b :: rest) mask idx (x :: t) →
          Chain rest (x.mask ||| mask) x.idx t := by
        rintro t ⟨pre, b', rest', e, e1, e2, e3, e4⟩
        rw [(hb.unique (pre := []) rfl e hx e1).2]
        exact e4
      split_ifs at h with h1 h2
      · rw [List.mem_singleton] at h
        subst h
        have := stacksBelow_complete (by simp) (key [q] hch)
        rw [h2] at this
        cases this
      · obtain ⟨t, ht, rfl⟩ := List.mem_map.1 h
        exact ih t ht hrest q (key _ hch)
      · cases h
    · obtain ⟨hne, hc⟩ := stacksBelow_chain qs (leavesBelow_sub.subset h)
      refine ih qs h hrest q ?_
      obtain ⟨x, t, rfl⟩ := List.exists_cons_of_ne_nil hne
      obtain ⟨pre, b', rest', e, e1, e2, e3, e4⟩ := hch
      obtain ⟨pre0, b0, rest0, f, f1, _⟩ := hc
      obtain ⟨g1, g2⟩ := hb.unique (pre := b :: pre0) (by rw [f]; rfl) e f1 e1
      exact ⟨pre0, b', rest', by rw [f, g1, g2], e1, e2, e3, e4⟩

theorem stacksBelow_nodup {bins : List PmBin} (h : (bins.flatMap PmBin.pms).Nodup) :
    ∀ {mask idx : ℕ}, (stacksBelow bins mask idx).Nodup := by
  induction bins with
  | nil => intro mask idx; exact List.nodup_nil
  | cons b rest ih =>
    intro mask idx
    rw [List.flatMap_cons, List.nodup_append] at h
    obtain ⟨h1, h2, h3⟩ := h
    rw [stacksBelow, List.nodup_append]
    refine ⟨?_, ih h2, ?_⟩
    · rw [List.nodup_flatMap]
      refine ⟨?_, ?_⟩
      · intro q hq
        split_ifs
        · rw [List.nodup_append]
          refine ⟨(ih h2).map fun _ _ h => (List.cons.inj h).2, List.nodup_singleton _, ?_⟩
          intro x hx y hy hxy
          obtain ⟨t, ht, rfl⟩ := List.mem_map.1 hx
          rw [List.mem_singleton] at hy
          rw [hy] at hxy
          exact (stacksBelow_chain t ht).1 (List.cons.inj hxy).2
        · exact List.nodup_nil
      · refine List.Pairwise.imp ?_ h1
        intro x y hxy l hl hl'
        have key : ∀ z : Subquery, l ∈ (if mask &&& z.mask = 0 ∧ idx ∉ z.nonOverlapping then
            (stacksBelow rest (z.mask ||| mask) z.idx).map (z :: ·) ++ [[z]] else []) →
            l.head? = some z := by
          intro z hz
          split_ifs at hz
          · rw [List.mem_append, List.mem_map, List.mem_singleton] at hz
            rcases hz with ⟨_, _, rfl⟩ | rfl <;> rfl
          · cases hz
        have hx := key x hl
        have hy := key y hl'
        rw [hx] at hy
        exact hxy (Option.some.inj hy)
    · intro x hx y hy hxy
      subst hxy
      rw [List.mem_flatMap] at hx
      obtain ⟨q, hq, hx⟩ := hx
      obtain ⟨hne, hch⟩ := stacksBelow_chain _ hy
      split_ifs at hx
      · have hh : q ∈ x := by
          rw [List.mem_append, List.mem_map, List.mem_singleton] at hx
          rcases hx with ⟨_, _, rfl⟩ | rfl <;> simp
        exact h3 q hq q (hch.mem q hh) rfl
      · cases hx

/-! ## The whole tree -/

theorem pmBins_nodup {pms : List Subquery} (h : pms.Nodup) :
    ((pmBins pms).flatMap PmBin.pms).Nodup := (pmBins_perm pms).nodup_iff.2 h

/-- Few stacks do not reach the limit, and the nodes are the stacks. -/
theorem few_below_limit {sm : ℕ} {pms : List Subquery} {t : StackTree}
    (h : stackableWith sm pms = some t) (hnd : pms.Nodup) (hfew : FewStacks sm pms) :
    t.arena.totalLeaves < t.arena.softMax ∧
      ∃ l : List (List Subquery), l.Nodup ∧ (∀ qs ∈ l, qs ≠ [] ∧ IsStack pms qs) ∧
        scansOf t = lastScans l := by
  unfold stackableWith at h
  rw [Option.map_eq_some_iff] at h
  obtain ⟨r, hr, rfl⟩ := h
  have hstack : ∀ qs ∈ stacksBelow (pmBins pms) 0 129, qs ≠ [] ∧ IsStack pms qs := by
    intro qs hqs
    obtain ⟨h1, h2⟩ := stacksBelow_chain qs hqs
    exact ⟨h1, (chain_iff_isStack pms qs).1 h2⟩
  have hlt : (leavesBelow (pmBins pms) 0 129).length < sm := by
    refine hfew _ (leavesBelow_sub.nodup (stacksBelow_nodup (pmBins_nodup hnd))) ?_
    intro qs hqs
    obtain ⟨h1, h2⟩ := hstack qs (leavesBelow_sub.subset hqs)
    refine ⟨h1, h2, ?_⟩
    rintro ⟨q, hq⟩
    exact leavesBelow_last qs hqs (pmBins_typed pms) q ((chain_iff_isStack pms _).2 hq)
  have ha := stackLoop_adds hr (by
    show 0 + (leavesBelow (pmBins pms) 0 129).length < sm
    omega)
  refine ⟨?_, stacksBelow (pmBins pms) 0 129, stacksBelow_nodup (pmBins_nodup hnd), hstack, ?_⟩
  · show r.2.totalLeaves < r.2.softMax
    rw [ha.total, ha.softMax]
    show 0 + (leavesBelow (pmBins pms) 0 129).length < sm
    omega
  · have hn : r.2.nodes.map (fun p => (p.1.pm, p.2)) =
        (stacksBelow (pmBins pms) 0 129).map fun qs => (qs.getLast?, true) := ha.nodes
    show ((r.2.nodes.filter fun n => n.2).flatMap fun n => _) = _
    have key : ∀ (l : List (StackNode × Bool)) (m : List (List Subquery)),
        l.map (fun p => (p.1.pm, p.2)) = m.map (fun qs => (qs.getLast?, true)) →
        ((l.filter fun n => n.2).flatMap fun n =>
          n.1.pm.toList.flatMap fun q => q.matchKeys.map fun kg => (q, kg)) = lastScans m := by
      intro l
      induction l with
      | nil =>
        intro m hm
        cases m with
        | nil => rfl
        | cons _ _ => cases hm
      | cons a t ih =>
        intro m hm
        cases m with
        | nil => cases hm
        | cons b u =>
          rw [List.map_cons, List.map_cons, List.cons.injEq, Prod.mk.injEq] at hm
          obtain ⟨⟨h1, h2⟩, h3⟩ := hm
          rw [List.filter_cons_of_pos h2, List.flatMap_cons, ih u h3, h1]
          rfl
    exact key _ _ hn

end Carmen

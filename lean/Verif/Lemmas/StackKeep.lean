import Verif.Props.StackNoPanic

/-!
# What the stack limit keeps
-/

namespace Carmen

/-- An arena that becomes another by adding nodes. -/
inductive Grows : Arena → Arena → Prop
  | refl (a : Arena) : Grows a a
  | add {a b c : Arena} {n : StackNode} {r : Option ℕ} : Grows a b →
      n.maxRelev ≤ F64.maxValue → b.add n = some (c, r) → Grows a c

theorem Grows.trans {a b c : Arena} (h1 : Grows a b) (h2 : Grows b c) : Grows a c := by
  induction h2 with
  | refl => exact h1
  | add _ hn he ih => exact .add ih hn he

theorem Grows.reached {sm : ℕ} {a b : Arena} (h : Grows a b) (ha : ArenaReached sm a) :
    ArenaReached sm b := by
  induction h with
  | refl => exact ha
  | add _ hn he ih => exact .add ih hn he

theorem Grows.fst {a b : Arena} (h : Grows a b) :
    ∃ L, b.nodes.map Prod.fst = a.nodes.map Prod.fst ++ L := by
  induction h with
  | refl => exact ⟨[], by simp⟩
  | add _ _ he ih =>
    obtain ⟨L, hL⟩ := ih
    rcases Arena.add_cases he with ⟨rfl, _, _⟩ | ⟨_, h2, _⟩
    · exact ⟨L, hL⟩
    · exact ⟨L ++ [_], by rw [h2, hL, List.append_assoc]⟩

theorem Arena.get_fst {a : Arena} {i : ℕ} {n : StackNode} (h : a.get i = some n) :
    (a.nodes.map Prod.fst)[i]? = some n := by
  rw [Arena.get_eq_some] at h
  rw [List.getElem?_map, h]
  rfl

theorem Grows.get_eq {a b : Arena} (h : Grows a b) {i : ℕ} {n m : StackNode}
    (hn : (a.nodes.map Prod.fst)[i]? = some n) (hm : b.get i = some m) : m = n := by
  obtain ⟨L, hL⟩ := h.fst
  have := Arena.get_fst hm
  rw [hL, getElem?_append_of_some hn] at this
  exact (Option.some.inj this).symm

/-- Once there are nodes, one has the minimal relevance. -/
theorem Arena.Wf.min_attained {a : Arena} (h : a.Wf) {i : ℕ} {n : StackNode}
    (hn : a.get i = some n) : ∃ j m, a.get j = some m ∧ m.maxRelev = a.minRelev := by
  have hne : a.relevMap ≠ [] := by
    intro h0
    have : HMap.find n.maxRelev a.relevMap = none := by rw [h0]; rfl
    exact h.absent _ this i n (Arena.get_eq_some.1 hn) rfl
  have := h.minMem hne
  rw [Option.isSome_iff_exists] at this
  obtain ⟨⟨c, is⟩, hc⟩ := this
  obtain ⟨h1, h2, _⟩ := h.ids _ _ _ hc
  cases is with
  | nil => exact absurd rfl h2
  | cons j t =>
    obtain ⟨m, hm, he⟩ := (h1 j).1 (by simp)
    exact ⟨j, m, Arena.get_eq_some.2 hm, he⟩

theorem Arena.add_min {sm : ℕ} {a b : Arena} {n : StackNode} {r : Option ℕ}
    (ha : ArenaReached sm a) (hn : n.maxRelev ≤ F64.maxValue) (he : a.add n = some (b, r))
    (hf : a.Full) : b.Full ∧ a.minRelev ≤ b.minRelev := by
  have hb := ArenaReached.add ha hn he
  obtain ⟨h1, h2⟩ := C33_drops_only_worse_partial ha hn he
  have hfb : b.Full := by
    have := h1 (by rw [← ha.wf.2]; exact hf)
    unfold Arena.Full
    rw [hb.wf.2]
    exact this
  refine ⟨hfb, ?_⟩
  have hf' : ¬ a.totalLeaves < a.softMax := not_lt.2 hf
  rw [Arena.add_eq] at he
  split_ifs at he with h3 h5
  · cases he; exact le_refl _
  · split at he
    · cases he
    · rename_i heq
      split_ifs at he
      · cases he
        unfold Arena.cullMin
        have hw : ({ Arena.inserted a n with minRelev := a.minRelev } : Arena).Wf :=
          ha.wf.1.inserted (by rw [if_neg (not_lt.2 (le_of_lt h5))]) hn
        have hk : ∀ k ∈ (Arena.inserted a n).relevMap.map Prod.fst, a.minRelev ≤ k := by
          intro k hk
          exact hw.minLe k (HMap.mem_keys_iff.1 hk)
        have hmx : a.minRelev ≤ F64.maxValue := le_trans (le_of_lt h5) hn
        have hs : ∀ m : HMap F64 (ℕ × List ℕ), m.Sublist (Arena.inserted a n).relevMap →
            a.minRelev ≤ Arena.smallestKey m := by
          intro m hm
          obtain ⟨s1, s2, s3⟩ := Arena.smallestKey_spec (m := m)
          by_cases h0 : m = []
          · rw [s1 h0]; exact hmx
          · exact hk _ ((hm.map Prod.fst).subset (s2 h0))
        split
        · exact hs _ HMap.erase_sublist
        · exact hs _ (List.Sublist.refl _)
      · cases he; exact le_refl _
  · cases he; exact le_refl _

theorem Grows.full {sm : ℕ} {a b : Arena} (h : Grows a b) (ha : ArenaReached sm a) (hf : a.Full) :
    b.Full ∧ a.minRelev ≤ b.minRelev := by
  induction h with
  | refl => exact ⟨hf, le_refl _⟩
  | add hg hn he ih =>
    obtain ⟨h1, h2⟩ := Arena.add_min (hg.reached ha) hn he ih.1
    exact ⟨h1, le_trans ih.2 h2⟩

/-- What is at least as relevant as the final minimum is not dropped on the way. -/
theorem Grows.keeps {sm : ℕ} {a b : Arena} (h : Grows a b) (ha : ArenaReached sm a) {i : ℕ}
    {n : StackNode} (hn : a.get i = some n) (hm : b.minRelev ≤ n.maxRelev) :
    b.get i = some n := by
  suffices H : b.get i = some n ∨ (b.Full ∧ n.maxRelev < b.minRelev) by
    rcases H with H | H
    · exact H
    · exact absurd hm (not_le.2 H.2)
  clear hm
  induction h with
  | refl => exact Or.inl hn
  | @add b c k r hg hk he ih =>
    have hb := hg.reached ha
    rcases ih with ih | ⟨h1, h2⟩
    · obtain ⟨d1, d2⟩ := C33_drops_only_worse_partial hb hk he
      have hc := ArenaReached.add hb hk he
      cases r with
      | none => rw [d2.1]; exact Or.inl ih
      | some j =>
        obtain ⟨_, d3, _, d4⟩ := d2
        rcases d4 i n ih with d4 | ⟨_, d5, d6⟩
        · exact Or.inl d4
        · right
          obtain ⟨j', m, e1, e2⟩ := hc.wf.1.min_attained d3
          refine ⟨by unfold Arena.Full; rw [hc.wf.2]; exact d5, ?_⟩
          rw [← e2]
          exact d6 _ _ e1
    · obtain ⟨h3, h4⟩ := Arena.add_min hb hk he h1
      exact Or.inr ⟨h3, lt_of_lt_of_le h2 h4⟩

/-- The ways to follow a stack down from a list of children. -/
def sumPaths (t : StackTree) (cs : List ℕ) (q : Subquery) (qs : List Subquery) : ℕ :=
  (cs.map fun c => match t.arena.get c with
    | some m => if m.pm = some q then countPaths t m qs else 0
    | none => 0).sum

/-- What is still there below a list of children. -/
inductive Below (t : StackTree) : List ℕ → ℕ → Prop
  | here {cs : List ℕ} {c : ℕ} {n : StackNode} : c ∈ cs → t.arena.get c = some n → Below t cs c
  | down {cs : List ℕ} {c i : ℕ} {n : StackNode} : c ∈ cs → t.arena.get c = some n →
      Below t n.children i → Below t cs i

theorem Below.mono {t : StackTree} {cs ds : List ℕ} {i : ℕ} (h : Below t cs i)
    (hs : ∀ c ∈ cs, c ∈ ds) : Below t ds i := by
  cases h with
  | here h1 h2 => exact .here (hs _ h1) h2
  | down h1 h2 h3 => exact .down (hs _ h1) h2 h3

/-- A part of the construction, for the phrase matches `l`: where it leads, and, of every tree it
may end in, which stacks are there (`Need`: threshold, first phrase match, others, in how many ways
the others continue it) and that nothing still there is out of reach. -/
structure Keeps (l : List Subquery) (Need : F64 → Subquery → List Subquery → ℕ → Prop)
    (st st' : StackNode × Arena) (newCh : List ℕ) : Prop where
  grows : Grows st.2 st'.2
  same : SameNode st.1 st'.1
  top : st'.1.maxRelev ≤ F64.maxValue
  up : st.1.maxRelev ≤ st'.1.maxRelev
  children : st'.1.children = st.1.children ++ newCh
  other : ∀ t : StackTree, Grows st'.2 t.arena → ∀ q qs, q ∉ l → sumPaths t newCh q qs = 0
  found : ∀ t : StackTree, Grows st'.2 t.arena → ∀ q qs V, q ∈ l →
    Need t.arena.minRelev q qs V →
    sumPaths t newCh q qs = l.count q * V ∧ t.arena.minRelev ≤ st'.1.maxRelev
  reach : ∀ t : StackTree, Grows st'.2 t.arena → ∀ i n, st.2.nodes.length ≤ i →
    i < st'.2.nodes.length → t.arena.get i = some n →
    n.maxRelev ≤ st'.1.maxRelev ∧ Below t newCh i

theorem sumPaths_append (t : StackTree) (cs ds : List ℕ) (q : Subquery) (qs : List Subquery) :
    sumPaths t (cs ++ ds) q qs = sumPaths t cs q qs + sumPaths t ds q qs := by
  simp [sumPaths]

theorem Keeps.refl {Need : F64 → Subquery → List Subquery → ℕ → Prop} {st : StackNode × Arena}
    (h : st.1.maxRelev ≤ F64.maxValue) : Keeps [] Need st st [] where
  grows := .refl _
  same := SameNode.refl _
  top := h
  up := le_refl _
  children := by simp
  other _ _ _ _ _ := rfl
  found _ _ _ _ _ h := by cases h
  reach _ _ i n h1 h2 _ := absurd h1 (not_le.2 h2)

theorem Keeps.trans {l1 l2 : List Subquery} {Need : F64 → Subquery → List Subquery → ℕ → Prop}
    {st st1 st2 : StackNode × Arena} {c1 c2 : List ℕ} (h1 : Keeps l1 Need st st1 c1)
    (h2 : Keeps l2 Need st1 st2 c2) : Keeps (l1 ++ l2) Need st st2 (c1 ++ c2) where
  grows := h1.grows.trans h2.grows
  same := h1.same.trans h2.same
  top := h2.top
  up := le_trans h1.up h2.up
  children := by rw [h2.children, h1.children, List.append_assoc]
  other t ht q qs hq := by
    rw [List.mem_append, not_or] at hq
    rw [sumPaths_append, h1.other t (h2.grows.trans ht) q qs hq.1, h2.other t ht q qs hq.2]
  found t ht q qs V hq hn := by
    have e1 : sumPaths t c1 q qs = l1.count q * V ∧
        (q ∈ l1 → t.arena.minRelev ≤ st2.1.maxRelev) := by
      by_cases hm : q ∈ l1
      · obtain ⟨a, b⟩ := h1.found t (h2.grows.trans ht) q qs V hm hn
        exact ⟨a, fun _ => le_trans b h2.up⟩
      · rw [h1.other t (h2.grows.trans ht) q qs hm, List.count_eq_zero_of_not_mem hm, Nat.zero_mul]
        exact ⟨rfl, fun h => absurd h hm⟩
    have e2 : sumPaths t c2 q qs = l2.count q * V ∧
        (q ∈ l2 → t.arena.minRelev ≤ st2.1.maxRelev) := by
      by_cases hm : q ∈ l2
      · obtain ⟨a, b⟩ := h2.found t ht q qs V hm hn
        exact ⟨a, fun _ => b⟩
      · rw [h2.other t ht q qs hm, List.count_eq_zero_of_not_mem hm, Nat.zero_mul]
        exact ⟨rfl, fun h => absurd h hm⟩
    refine ⟨by rw [sumPaths_append, e1.1, e2.1, List.count_append, Nat.add_mul], ?_⟩
    rcases List.mem_append.1 hq with h | h
    · exact e1.2 h
    · exact e2.2 h
  reach t ht i n hi hi' hg := by
    by_cases h : i < st1.2.nodes.length
    · obtain ⟨a, b⟩ := h1.reach t (h2.grows.trans ht) i n hi h hg
      exact ⟨le_trans a h2.up, b.mono fun c hc => List.mem_append.2 (Or.inl hc)⟩
    · obtain ⟨a, b⟩ := h2.reach t ht i n (not_lt.1 h) hi' hg
      exact ⟨a, b.mono fun c hc => List.mem_append.2 (Or.inr hc)⟩

theorem Keeps.mono {l : List Subquery} {N N' : F64 → Subquery → List Subquery → ℕ → Prop}
    {st st' : StackNode × Arena} {c : List ℕ} (h : Keeps l N st st' c)
    (hN : ∀ m q qs V, q ∈ l → N' m q qs V → N m q qs V) : Keeps l N' st st' c :=
  { h with found := fun t ht q qs V hq hn => h.found t ht q qs V hq (hN _ _ _ _ hq hn) }

/-- The estimates made on the way down a stack all reach the threshold, and so does its
relevance. -/
def Reaches (m : F64) : List PmBin → F64 → List Subquery → Prop
  | _, r, [] => m ≤ r
  | bins, r, q :: qs => ∀ pre b rest, bins = pre ++ b :: rest → q ∈ b.pms →
      m ≤ r + q.weight + b.maxAfter ∧ Reaches m rest (r + q.weight) qs

/-- What is to be found when `q`, in the bin `b`, is tried. -/
def NeedIn (b : PmBin) (rest : List PmBin) (relev : F64) (mask idx : ℕ) (m : F64) (q : Subquery)
    (qs : List Subquery) (V : ℕ) : Prop :=
  mask &&& q.mask = 0 ∧ idx ∉ q.nonOverlapping ∧ Chain rest (q.mask ||| mask) q.idx qs ∧
    m ≤ relev + q.weight + b.maxAfter ∧ Reaches m rest (relev + q.weight) qs ∧
    V = (qs.map fun x => (rest.flatMap PmBin.pms).count x).prod

/-- What is to be found when all the bins have been tried. -/
def NeedOf (bins : List PmBin) (relev : F64) (mask idx : ℕ) (m : F64) (q : Subquery)
    (qs : List Subquery) (V : ℕ) : Prop :=
  ∃ pre b rest, bins = pre ++ b :: rest ∧ q ∈ b.pms ∧ NeedIn b rest relev mask idx m q qs V

theorem Arena.add_refused {a b : Arena} {n : StackNode} (h : a.add n = some (b, none)) :
    n.maxRelev < a.minRelev := by
  rw [Arena.add_eq] at h
  by_cases h1 : a.softMax ≤ a.totalLeaves ∧ n.maxRelev < a.minRelev
  · exact h1.2
  rw [if_neg h1] at h
  by_cases h2 : a.totalLeaves < a.softMax
  · rw [if_pos h2] at h
    cases (Prod.ext_iff.1 (Option.some.inj h)).2
  rw [if_neg h2] at h
  by_cases h3 : a.minRelev < n.maxRelev
  · rw [if_pos h3] at h
    split at h
    · cases h
    · split_ifs at h <;> cases (Prod.ext_iff.1 (Option.some.inj h)).2
  · rw [if_neg h3] at h
    cases (Prod.ext_iff.1 (Option.some.inj h)).2

theorem ne_nan_of_le_max {a : F64} (h : a ≤ F64.maxValue) : a ≠ .nan := by
  rintro rfl
  exact absurd h (by decide +kernel)

theorem linkChild_max {n c : StackNode} {r : Option ℕ} (hn : n.maxRelev ≤ F64.maxValue)
    (hc : c.maxRelev ≤ F64.maxValue) :
    (linkChild n c r).maxRelev ≤ F64.maxValue ∧ n.maxRelev ≤ (linkChild n c r).maxRelev ∧
      (r ≠ none → c.maxRelev ≤ (linkChild n c r).maxRelev) := by
  cases r with
  | none => exact ⟨hn, le_refl _, fun h => absurd rfl h⟩
  | some i =>
    unfold linkChild
    by_cases h : F64.flt n.maxRelev c.maxRelev = true
    · simp only [h, if_true]
      have : n.maxRelev < c.maxRelev := by
        unfold F64.flt at h
        exact (of_decide_eq_true h).2.2
      exact ⟨hc, le_of_lt this, fun _ => le_refl _⟩
    · simp only [h]
      exact ⟨hn, le_refl _, fun _ => le_of_flt_false (ne_nan_of_le_max hn) (ne_nan_of_le_max hc)
        (by simpa using h)⟩

theorem Keeps.congr {l l' : List Subquery} {N : F64 → Subquery → List Subquery → ℕ → Prop}
    {st st' : StackNode × Arena} {c : List ℕ} (h : Keeps l N st st' c) (e : l = l') :
    Keeps l' N st st' c := e ▸ h

theorem stackStep_keeps {sm : ℕ} {g : PmBin} {rest : List PmBin} {relev : F64}
    {st st' : StackNode × Arena} {pm : Subquery} (hrest : TypedBins rest)
    (hpw : pm.weight.IsFin ∧ pm.weight ≤ 1) (hr : relev ≤ F64.maxValue)
    (hm : st.1.maxRelev ≤ F64.maxValue) (ha : ArenaReached sm st.2)
    (ih : ∀ {relev : F64} {st st' : StackNode × Arena}, relev ≤ F64.maxValue →
      st.1.maxRelev ≤ F64.maxValue → ArenaReached sm st.2 → stackLoop rest relev st = some st' →
      ∃ ch, Keeps (rest.flatMap PmBin.pms) (NeedOf rest relev st.1.mask st.1.idx) st st' ch)
    (h : stackStep g rest relev st pm = some st') :
    ∃ ch, Keeps [pm] (NeedIn g rest relev st.1.mask st.1.idx) st st' ch := by
  unfold stackStep at h
  by_cases hf : st.1.mask &&& pm.mask = 0 ∧ st.1.idx ∉ pm.nonOverlapping
  swap
  · rw [if_neg hf] at h
    cases h
    exact ⟨[], { (Keeps.refl hm : Keeps [] (NeedIn g rest relev st.1.mask st.1.idx) st st []) with
      other := fun _ _ _ _ _ => rfl
      found := fun t ht q qs V hq hn => by
        obtain rfl := List.mem_singleton.1 hq
        exact absurd ⟨hn.1, hn.2.1⟩ hf }⟩
  rw [if_pos hf] at h
  by_cases hfull : (st.2.isFull && F64.flt (relev + pm.weight + g.maxAfter) st.2.minRelev) = true
  · rw [if_pos hfull] at h
    cases h
    rw [Bool.and_eq_true] at hfull
    refine ⟨[], { (Keeps.refl hm : Keeps [] (NeedIn g rest relev st.1.mask st.1.idx) st st []) with
      other := fun _ _ _ _ _ => rfl
      found := fun t ht q qs V hq hn => ?_ }⟩
    obtain rfl := List.mem_singleton.1 hq
    obtain ⟨_, _, _, h4, _⟩ := hn
    have h1 : relev + q.weight + g.maxAfter < st.2.minRelev := by
      have := hfull.2
      unfold F64.flt at this
      exact (of_decide_eq_true this).2.2
    have h2 := (ht.full ha (show st.2.softMax ≤ st.2.totalLeaves from
      of_decide_eq_true hfull.1)).2
    exact absurd (le_trans h2 h4) (not_le.2 h1)
  rw [if_neg hfull] at h
  have ht0 := add_le_max hr hpw.1 hpw.2
  cases hl : stackLoop rest (relev + pm.weight) (childNode st.1 pm (relev + pm.weight), st.2) with
  | none => rw [hl] at h; cases h
  | some r =>
  cases hadd : r.2.add r.1 with
  | none => rw [hl] at h; simp [hadd] at h
  | some added =>
  obtain ⟨b, o⟩ := added
  have hst : st' = (linkChild st.1 r.1 o, b) := by
    rw [hl] at h
    simp only [Option.bind_eq_bind, Option.bind_some, hadd] at h
    exact (Option.some.inj h).symm
  subst hst
  obtain ⟨ch, k⟩ := ih (relev := relev + pm.weight)
    (st := (childNode st.1 pm (relev + pm.weight), st.2)) ht0 ht0 ha hl
  have hchild : r.1.children = ch := by
    have := k.children
    simpa [childNode] using this
  have hpm : r.1.pm = some pm := k.same.1
  have hg : Grows r.2 b := .add (.refl _) k.top hadd
  have hrr : ArenaReached sm r.2 := k.grows.reached ha
  have hlink := linkChild_max (r := o) hm k.top
  have hup : relev + pm.weight ≤ r.1.maxRelev := k.up
  -- a child that matters at the end was added and is still there
  have hkeep : ∀ t : StackTree, Grows b t.arena → t.arena.minRelev ≤ r.1.maxRelev →
      o = some r.2.nodes.length ∧ t.arena.get r.2.nodes.length = some r.1 ∧
        b.nodes.length = r.2.nodes.length + 1 := by
    intro t ht hle
    have hd := (C33_drops_only_worse_partial hrr k.top hadd).2
    rcases Arena.add_cases hadd with ⟨rfl, rfl, hfl⟩ | ⟨rfl, h2, _⟩
    · exfalso
      exact absurd (le_trans (ht.full hrr hfl).2 hle) (not_le.2 (Arena.add_refused hadd))
    · refine ⟨rfl, ht.keeps (hg.reached hrr) hd.2.1 hle, ?_⟩
      have := congrArg List.length h2
      simpa using this
  have hnewch : ∃ nc, (linkChild st.1 r.1 o).children = st.1.children ++ nc ∧ nc = o.toList := by
    cases o with
    | none => exact ⟨[], by simp [linkChild], rfl⟩
    | some i => exact ⟨[i], by simp [linkChild], rfl⟩
  obtain ⟨nc, hnc, hnc'⟩ := hnewch
  refine ⟨nc, ?_⟩
  subst hnc'
  refine ⟨k.grows.trans hg, ?_, hlink.1, hlink.2.1, hnc, ?_, ?_, ?_⟩
  · cases o with
    | none => exact SameNode.refl _
    | some i => exact ⟨rfl, rfl, rfl, rfl, rfl⟩
  · intro t ht q qs hq
    cases o with
    | none => rfl
    | some i =>
      rcases Arena.add_cases hadd with ⟨_, hc, _⟩ | ⟨hi, h2, _⟩
      · cases hc
      · obtain rfl := Option.some.inj hi
        have h3 : (b.nodes.map Prod.fst)[r.2.nodes.length]? = some r.1 := by
          rw [h2, List.getElem?_append_right (by simp)]
          simp
        show ([r.2.nodes.length].map _).sum = 0
        simp only [List.map_cons, List.map_nil, List.sum_cons, List.sum_nil, Nat.add_zero]
        cases hgt : t.arena.get r.2.nodes.length with
        | none => rfl
        | some m' =>
          obtain rfl := ht.get_eq h3 hgt
          have hne : r.1.pm ≠ some q := by
            rw [hpm]
            intro e
            exact hq (by simp [Option.some.inj e])
          simp [hne]
  · intro t ht q qs V hq hn
    obtain rfl := List.mem_singleton.1 hq
    obtain ⟨n1, n2, n3, n4, n5, n6⟩ := hn
    have hmain : t.arena.minRelev ≤ r.1.maxRelev ∧ countPaths t r.1 qs = V := by
      cases qs with
      | nil => exact ⟨le_trans n5 hup, by simp [countPaths, n6]⟩
      | cons q' qs' =>
        have n3' := n3
        obtain ⟨pre, b', rest', e1, e2, e3, e4, e5⟩ := n3
        obtain ⟨e6, e7⟩ := n5 pre b' rest' e1 e2
        have hq' : q' ∈ rest.flatMap PmBin.pms :=
          List.mem_flatMap.2 ⟨b', by rw [e1]; simp, e2⟩
        obtain ⟨f1, f2⟩ := k.found t (hg.trans ht) q' qs'
          ((qs'.map fun x => (rest'.flatMap PmBin.pms).count x).prod) hq'
          ⟨pre, b', rest', e1, e2, e3, e4, e5, e6, e7, rfl⟩
        refine ⟨f2, ?_⟩
        have : countPaths t r.1 (q' :: qs') = sumPaths t ch q' qs' := by
          rw [countPaths, hchild]
          rfl
        rw [this, f1, n6, List.map_cons, List.prod_cons]
        congr 2
        refine List.map_congr_left fun x hx => ?_
        have hs := TypedBins.count_suffix (pre := pre ++ [b']) (bins := rest')
          (by rw [e1] at hrest; simpa using hrest) (e5.mem x hx)
        rw [e1, ← hs]
        simp
    obtain ⟨rfl, hget, _⟩ := hkeep t ht hmain.1
    refine ⟨?_, le_trans hmain.1 (hlink.2.2 (by simp))⟩
    show ([r.2.nodes.length].map _).sum = _
    simp [hget, hpm, hmain.2]
  · intro t ht i n hi hi' hgi
    have htr := (ht.reached (hg.reached hrr))
    have hmin := htr.wf.1.minRelev_le hgi
    by_cases hlt : i < r.2.nodes.length
    · obtain ⟨r1, r2⟩ := k.reach t (hg.trans ht) i n hi hlt hgi
      obtain ⟨rfl, hget, _⟩ := hkeep t ht (le_trans hmin r1)
      exact ⟨le_trans r1 (hlink.2.2 (by simp)), .down (c := r.2.nodes.length) (by simp) hget
        (by rw [hchild]; exact r2)⟩
    · rcases Arena.add_cases hadd with ⟨rfl, rfl, _⟩ | ⟨rfl, h2, _⟩
      · exact absurd hi' hlt
      · have hlen : b.nodes.length = r.2.nodes.length + 1 := by
          have := congrArg List.length h2
          simpa using this
        have : i = r.2.nodes.length := by
          have : i < b.nodes.length := hi'
          omega
        subst this
        have h3 : (b.nodes.map Prod.fst)[r.2.nodes.length]? = some r.1 := by
          rw [h2, List.getElem?_append_right (by simp)]
          simp
        obtain rfl := ht.get_eq h3 hgi
        exact ⟨hlink.2.2 (by simp), .here (by simp) hgi⟩

theorem stackLoop_keeps {sm : ℕ} {bins : List PmBin} (hb : TypedBins bins)
    (hw : ∀ q ∈ bins.flatMap PmBin.pms, q.weight.IsFin ∧ q.weight ≤ 1) :
    ∀ {relev : F64} {st st' : StackNode × Arena}, relev ≤ F64.maxValue →
    st.1.maxRelev ≤ F64.maxValue → ArenaReached sm st.2 → stackLoop bins relev st = some st' →
    ∃ ch, Keeps (bins.flatMap PmBin.pms) (NeedOf bins relev st.1.mask st.1.idx) st st' ch := by
  induction bins with
  | nil =>
    intro relev st st' _ h2 _ h
    cases h
    exact ⟨[], Keeps.refl h2⟩
  | cons g rest ih =>
    intro relev st st' hr hm ha h
    have hbr : TypedBins rest := TypedBins.tail (pre := [g]) hb
    have hwr : ∀ q ∈ rest.flatMap PmBin.pms, q.weight.IsFin ∧ q.weight ≤ 1 := by
      intro q hq
      refine hw q ?_
      rw [List.flatMap_cons]
      simp [hq]
    have hfold : ∀ (l : List Subquery) (s s' : StackNode × Arena), (∀ pm ∈ l, pm ∈ g.pms) →
        s.1.maxRelev ≤ F64.maxValue → ArenaReached sm s.2 → SameNode st.1 s.1 →
        l.foldlM (stackStep g rest relev) s = some s' →
        ∃ ch, Keeps l (NeedIn g rest relev st.1.mask st.1.idx) s s' ch := by
      intro l
      induction l with
      | nil =>
        intro s s' _ h1 _ _ h
        cases h
        exact ⟨[], Keeps.refl h1⟩
      | cons pm t iht =>
        intro s s' hl h1 h2 hsame h
        rw [List.foldlM_cons] at h
        cases hs : stackStep g rest relev s pm with
        | none => rw [hs] at h; cases h
        | some s1 =>
          rw [hs] at h
          obtain ⟨c1, k1⟩ := stackStep_keeps hbr
            (hw pm (by rw [List.flatMap_cons]; simp [hl pm (by simp)])) hr h1 h2
            (fun a b c d => ih hbr hwr a b c d) hs
          obtain ⟨c2, k2⟩ := iht s1 s' (fun q hq => hl q (by simp [hq])) k1.top
            (k1.grows.reached h2) (hsame.trans k1.same) h
          rw [hsame.2.1, hsame.2.2.1] at k1
          exact ⟨c1 ++ c2, k1.trans k2⟩
    rw [stackLoop_cons] at h
    cases hs : g.pms.foldlM (stackStep g rest relev) st with
    | none => rw [hs] at h; cases h
    | some s1 =>
      rw [hs] at h
      obtain ⟨c1, k1⟩ := hfold g.pms st s1 (fun _ h => h) hm ha (SameNode.refl _) hs
      obtain ⟨c2, k2⟩ := ih hbr hwr hr k1.top (k1.grows.reached ha) h
      rw [k1.same.2.1, k1.same.2.2.1] at k2
      refine ⟨c1 ++ c2, (Keeps.trans (k1.mono ?_) (k2.mono ?_)).congr (List.flatMap_cons ..).symm⟩
      · rintro m q qs V hq ⟨pre, b, rest', e1, e2, e3⟩
        obtain ⟨rfl, rfl⟩ := hb.unique (pre := []) rfl e1 hq e2
        exact e3
      · rintro m q qs V hq ⟨pre, b, rest', e1, e2, e3⟩
        obtain ⟨b0, hb0, hq0⟩ := List.mem_flatMap.1 hq
        obtain ⟨pre0, rest0, hs0⟩ := List.append_of_mem hb0
        obtain ⟨rfl, rfl⟩ := hb.unique (pre := g :: pre0) (by rw [hs0]; rfl) e1 hq0 e2
        exact ⟨pre0, b0, rest0, hs0, e2, e3⟩

end Carmen

import Verif.Lemmas.Arena

/-!
# C33: the stack limit drops only worse stacks and never panics

The full statement speaks of all nodes. It is false for nodes of infinite or NaN relevance
(`C33_infinite_relevance_panics`); the `_partial` theorems cover all others. -/

namespace Carmen

/-- An arena reached from an empty one with soft maximum `softMax` by adding nodes whose maximal
relevance is at most the largest floating point number (so neither infinite nor NaN). -/
inductive ArenaReached (softMax : ℕ) : Arena → Prop
  | new : ArenaReached softMax (Arena.new softMax)
  | add {a a' : Arena} {n : StackNode} {r : Option ℕ} : ArenaReached softMax a →
      n.maxRelev ≤ F64.maxValue → a.add n = some (a', r) → ArenaReached softMax a'

/-- The number of leaves in the arena, counted node by node. -/
def Arena.countLeaves (a : Arena) : ℕ :=
  ((List.range a.nodes.length).filter fun i => match a.get i with
    | some n => n.children.length == 0
    | none => false).length

theorem Arena.countLeaves_eq (a : Arena) : a.countLeaves = a.nodes.countP Arena.leafP := by
  unfold Arena.countLeaves
  have key : ∀ l : List (StackNode × Bool), ((List.range l.length).filter fun i =>
      match (match l[i]? with
        | some (n, true) => some n
        | _ => none) with
      | some n => n.children.length == 0
      | none => false).length = l.countP Arena.leafP := by
    intro l
    induction l using List.reverseRecOn with
    | nil => rfl
    | append_singleton l p ih =>
      rw [List.length_append, List.length_singleton, List.range_succ, List.filter_append,
        List.length_append, List.countP_append, ← ih]
      congr 1
      · congr 1
        apply List.filter_congr
        intro i hi
        rw [List.mem_range] at hi
        rw [List.getElem?_append_left hi]
      · rw [List.countP_singleton]
        obtain ⟨n, b⟩ := p
        rw [List.filter_cons, List.filter_nil]
        simp only [List.getElem?_append_right (le_refl _), Nat.sub_self]
        unfold Arena.leafP StackNode.isLeaf
        cases b
        · simp
        · simp only [List.getElem?_cons_zero, Bool.true_and]
          split <;> rfl
  exact key a.nodes

theorem Arena.wf_add {a a' : Arena} {n : StackNode} {r : Option ℕ} (h : a.Wf)
    (hn : n.maxRelev ≤ F64.maxValue) (hadd : a.add n = some (a', r)) : a'.Wf := by
  rw [Arena.add_eq] at hadd
  split at hadd
  · cases hadd; exact h
  · rename_i h1
    have hins := h.inserted (n := n) rfl hn
    split at hadd
    · cases hadd; exact hins
    · rename_i h2
      have hge : a.minRelev ≤ n.maxRelev := by
        by_contra hc
        exact h1 ⟨by omega, not_le.1 hc⟩
      rw [if_neg (not_lt.2 hge)] at hins
      have hins : (Arena.inserted a n).Wf := hins
      split at hadd
      · split at hadd
        · cases hadd
        · split at hadd
          · cases hadd; exact hins.cullMin
          · cases hadd; exact hins
      · cases hadd; exact hins

theorem Arena.softMax_add {a a' : Arena} {n : StackNode} {r : Option ℕ}
    (hadd : a.add n = some (a', r)) : a'.softMax = a.softMax := by
  rw [Arena.add_eq] at hadd
  have hc : ∀ b : Arena, b.cullMin.softMax = b.softMax := by
    intro b; unfold Arena.cullMin; split <;> rfl
  split at hadd
  · cases hadd; rfl
  · split at hadd
    · cases hadd; rfl
    · split at hadd
      · split at hadd
        · cases hadd
        · split at hadd
          · cases hadd; rw [hc]; rfl
          · cases hadd; rfl
      · cases hadd; rfl

theorem ArenaReached.wf {softMax : ℕ} {a : Arena} (h : ArenaReached softMax a) :
    a.Wf ∧ a.softMax = softMax := by
  induction h with
  | new => exact ⟨Arena.wf_new _, rfl⟩
  | add _ hn hadd ih => exact ⟨Arena.wf_add ih.1 hn hadd, (Arena.softMax_add hadd).trans ih.2⟩

/-- C33: the leaf counter is exact. -/
theorem C33_leaf_count_exact_partial {softMax : ℕ} {a : Arena} (h : ArenaReached softMax a) :
    a.totalLeaves = a.countLeaves := by
  rw [Arena.countLeaves_eq]; exact h.wf.1.total

/-- C33: adding never panics, for relevances that are numbers (and a positive limit). -/
theorem C33_never_panics_partial {softMax : ℕ} {a : Arena} (h : ArenaReached softMax a)
    (h0 : 0 < softMax) (n : StackNode) : a.add n ≠ none := by
  obtain ⟨hw, hs⟩ := h.wf
  rw [Arena.add_eq]
  split
  · simp
  · split
    · simp
    · rename_i h1 h2
      split
      · have hne : a.relevMap ≠ [] := by
          intro hc
          have hz : a.nodes.countP Arena.leafP = 0 := by
            rw [List.countP_eq_zero]
            rintro ⟨x, b⟩ hx hl
            unfold Arena.leafP at hl
            simp only [Bool.and_eq_true] at hl
            obtain ⟨i, hi⟩ := List.mem_iff_getElem?.1 hx
            rw [hl.1] at hi
            exact hw.absent x.maxRelev (by rw [hc]; rfl) i x hi rfl
          have := hw.total
          omega
        have hsome := hw.minMem hne
        rw [Arena.find_inserted]
        split
        · rename_i h3
          split at h3
          · cases h3
          · rw [h3] at hsome; cases hsome
        · split <;> simp
      · simp

/-- C33: what one addition does. Either the node is refused, then it is strictly worse than every
node kept, and nothing changes; or it gets a new index, and every other node that disappears was
strictly worse than every node kept. Once the limit is reached the number of leaves stays at or
above it. -/
theorem C33_drops_only_worse_partial {softMax : ℕ} {a a' : Arena} {n : StackNode} {r : Option ℕ}
    (h : ArenaReached softMax a) (hn : n.maxRelev ≤ F64.maxValue)
    (hadd : a.add n = some (a', r)) :
    (softMax ≤ a.totalLeaves → softMax ≤ a'.totalLeaves) ∧
    match r with
    | none => a' = a ∧ softMax ≤ a.totalLeaves ∧ ∀ i m, a.get i = some m → n.maxRelev < m.maxRelev
    | some j => a.get j = none ∧ a'.get j = some n ∧
        (∀ i m, a'.get i = some m → i = j ∨ a.get i = some m) ∧
        (∀ i m, a.get i = some m → a'.get i = some m ∨
          (a'.get i = none ∧ softMax ≤ a'.totalLeaves ∧
            ∀ k m', a'.get k = some m' → m.maxRelev < m'.maxRelev)) := by
  obtain ⟨hw, hs⟩ := h.wf
  subst hs
  have hnew : a.get a.nodes.length = none := by
    unfold Arena.get; rw [List.getElem?_eq_none le_rfl]
  -- the arena right after insertion
  have hget : ∀ i m, (Arena.inserted a n).get i = some m ↔
      (i = a.nodes.length ∧ m = n) ∨ a.get i = some m := by
    intro i m
    rw [Arena.get_eq_some, Arena.getElem?_inserted, Arena.get_eq_some]
    by_cases hi : i < a.nodes.length
    · rw [if_pos hi]
      constructor
      · exact Or.inr
      · rintro (⟨h1, _⟩ | h1)
        · omega
        · exact h1
    · rw [if_neg hi]
      rw [List.getElem?_eq_none (by omega : a.nodes.length ≤ i)]
      by_cases hi2 : i = a.nodes.length
      · rw [if_pos hi2]
        constructor
        · intro hc; cases hc; exact Or.inl ⟨hi2, rfl⟩
        · rintro (⟨_, rfl⟩ | h1)
          · rfl
          · cases h1
      · rw [if_neg hi2]
        constructor
        · intro hc; cases hc
        · rintro (⟨h1, _⟩ | h1)
          · exact absurd h1 hi2
          · cases h1
  -- no cull
  have plain : ∀ b : Arena, b.nodes = (Arena.inserted a n).nodes →
      a.get a.nodes.length = none ∧ b.get a.nodes.length = some n ∧
        (∀ i m, b.get i = some m → i = a.nodes.length ∨ a.get i = some m) ∧
        (∀ i m, a.get i = some m → b.get i = some m ∨
          (b.get i = none ∧ a.softMax ≤ b.totalLeaves ∧
            ∀ k m', b.get k = some m' → m.maxRelev < m'.maxRelev)) := by
    intro b hb
    have hbg : ∀ i, b.get i = (Arena.inserted a n).get i := by
      intro i; unfold Arena.get; rw [hb]
    refine ⟨hnew, by rw [hbg]; exact (hget _ _).2 (Or.inl ⟨rfl, rfl⟩), ?_, ?_⟩
    · intro i m hm
      rw [hbg] at hm
      rcases (hget i m).1 hm with ⟨h1, _⟩ | h1
      · exact Or.inl h1
      · exact Or.inr h1
    · intro i m hm
      left; rw [hbg]; exact (hget i m).2 (Or.inr hm)
  have hwf' := Arena.wf_add hw hn hadd
  rw [Arena.add_eq] at hadd
  split at hadd
  · rename_i h1
    cases hadd
    refine ⟨fun h => h, rfl, h1.1, ?_⟩
    intro i m hm
    exact lt_of_lt_of_le h1.2 (hw.minRelev_le hm)
  · rename_i h1
    split at hadd
    · rename_i h2
      cases hadd
      exact ⟨fun h => by omega, plain _ rfl⟩
    · rename_i h2
      have hge : a.minRelev ≤ n.maxRelev := by
        by_contra hc
        exact h1 ⟨by omega, not_le.1 hc⟩
      have hins := hw.inserted (n := n) rfl hn
      rw [if_neg (not_lt.2 hge)] at hins
      have hins : (Arena.inserted a n).Wf := hins
      have htot : a.totalLeaves ≤ (Arena.inserted a n).totalLeaves := Nat.le_add_right _ _
      split at hadd
      · rename_i h3
        split at hadd
        · cases hadd
        · rename_i count ids hf
          split at hadd
          · rename_i h4
            cases hadd
            have htl : (Arena.inserted a n).cullMin.totalLeaves =
                (Arena.inserted a n).totalLeaves - count := by
              unfold Arena.cullMin
              have : (Arena.inserted a n).minRelev = a.minRelev := rfl
              rw [this, hf]
            have hmin : (Arena.inserted a n).minRelev = a.minRelev := rfl
            refine ⟨fun _ => by rw [htl]; exact h4, hnew, ?_, ?_, ?_⟩
            · rw [hins.cullMin_get, hmin]
              exact ⟨(hget _ _).2 (Or.inl ⟨rfl, rfl⟩), h3.ne'⟩
            · intro i m hm
              rw [hins.cullMin_get] at hm
              rcases (hget i m).1 hm.1 with ⟨e1, _⟩ | e1
              · exact Or.inl e1
              · exact Or.inr e1
            · intro i m hm
              by_cases hmk : m.maxRelev = a.minRelev
              · right
                refine ⟨?_, by rw [htl]; exact h4, ?_⟩
                · cases hg : (Arena.inserted a n).cullMin.get i with
                  | none => rfl
                  | some m' =>
                    rw [hins.cullMin_get, hmin] at hg
                    have : m = m' := by
                      have := (hget i m).2 (Or.inr hm)
                      rw [hg.1] at this
                      cases this; rfl
                    subst this
                    exact absurd hmk hg.2
                · intro k m' hk
                  rw [hins.cullMin_get, hmin] at hk
                  rw [hmk]
                  exact lt_of_le_of_ne (hmin ▸ hins.minRelev_le hk.1) (Ne.symm hk.2)
              · left
                rw [hins.cullMin_get, hmin]
                exact ⟨(hget i m).2 (Or.inr hm), hmk⟩
          · cases hadd
            exact ⟨fun h => h.trans htot, plain _ rfl⟩
      · cases hadd
        exact ⟨fun h => h.trans htot, plain _ rfl⟩

/-- Adding a list of nodes. -/
def Arena.addAll (a : Arena) : List StackNode → Option Arena
  | [] => some a
  | n :: t =>
    match a.add n with
    | none => none
    | some r => Arena.addAll r.1 t

/-- A leaf of infinite relevance, as an infinite weight gives. -/
def infiniteLeaf : StackNode := ⟨none, [], [], 0, 0, .inf false, 0⟩

/-- C33 needs relevances that are numbers: with infinite ones the arena panics as soon as one more
leaf than the limit is added. -/
theorem C33_infinite_relevance_panics (softMax : ℕ) :
    (Arena.new softMax).addAll (List.replicate (softMax + 1) infiniteLeaf) = none := by
  have hlt : F64.maxValue < infiniteLeaf.maxRelev := F64.fin_lt_inf
  have key : ∀ k (a : Arena), a.softMax = softMax → a.totalLeaves + k = softMax →
      a.minRelev = F64.maxValue → HMap.find F64.maxValue a.relevMap = none →
      a.addAll (List.replicate (k + 1) infiniteLeaf) = none := by
    intro k
    induction k with
    | zero =>
      intro a h1 h2 h3 h4
      show (match a.add infiniteLeaf with
        | none => none
        | some r => Arena.addAll r.1 []) = none
      rw [Arena.add_eq, if_neg (by rw [h3]; exact fun hc => absurd hc.2 (not_lt.2 hlt.le)),
        if_neg (by omega), if_pos (by rw [h3]; exact hlt), Arena.find_inserted, h3,
        if_neg hlt.ne, h4]
    | succ k ih =>
      intro a h1 h2 h3 h4
      rw [List.replicate_succ]
      show (match a.add infiniteLeaf with
        | none => none
        | some r => Arena.addAll r.1 _) = none
      rw [Arena.add_eq, if_neg (by rw [h3]; exact fun hc => absurd hc.2 (not_lt.2 hlt.le)),
        if_pos (by omega)]
      simp only
      refine ih _ h1 ?_ ?_ ?_
      · show a.totalLeaves + 1 + k = softMax
        omega
      · show (if infiniteLeaf.maxRelev < a.minRelev then _ else a.minRelev) = _
        rw [h3, if_neg (not_lt.2 hlt.le)]
      · show HMap.find F64.maxValue (Arena.inserted a infiniteLeaf).relevMap = none
        rw [Arena.find_inserted, if_neg hlt.ne, h4]
  exact key softMax (Arena.new softMax) rfl (by simp [Arena.new]) rfl rfl

/-! ## Non-vacuity: a limit of two, four additions, the last of which culls two nodes -/

/-- A leaf of the given relevance. -/
def leafOf (r : F64) : StackNode := ⟨none, [], [], 0, 0, r, 0⟩

example : ((Arena.new 2).addAll [leafOf (lit 0.5), leafOf (lit 0.5), leafOf 1]).map
    (fun a => (a.totalLeaves, a.get 0, a.get 2)) =
      some (3, some (leafOf (lit 0.5)), some (leafOf 1)) := by decide +kernel

example : ((Arena.new 2).addAll [leafOf (lit 0.5), leafOf (lit 0.5), leafOf 1, leafOf 1]).map
    (fun a => (a.totalLeaves, a.get 0, a.get 1, a.get 2, a.get 3)) =
      some (2, none, none, some (leafOf 1), some (leafOf 1)) := by decide +kernel

example : ArenaReached 2 (Arena.new 2) ∧ (leafOf (lit 0.5)).maxRelev ≤ F64.maxValue :=
  ⟨.new, by decide +kernel⟩

end Carmen

import Mathlib.Data.List.Count
import Verif.Model.Stack
import Verif.Lemmas.HMap
import Verif.F64.Lemmas

/-!
# Invariant of the node store
-/

namespace Carmen

theorem HMap.find_erase {K V : Type} [DecidableEq K] {k k' : K} {m : HMap K V} (h : HMap.Wf m) :
    HMap.find k' (HMap.erase k m) = if k' = k then none else HMap.find k' m := by
  induction m with
  | nil => simp [HMap.erase, HMap.find]
  | cons p t ih =>
    obtain ⟨a, v⟩ := p
    unfold HMap.Wf at h ih
    rw [List.map_cons, List.nodup_cons] at h
    have ih := ih h.2
    unfold HMap.erase
    by_cases hk : k = a
    · subst hk
      rw [if_pos rfl]
      by_cases hk' : k' = k
      · subst hk'
        rw [if_pos rfl]
        by_contra hc
        have := HMap.mem_keys_iff.2 (Option.isSome_iff_ne_none.2 hc)
        exact h.1 this
      · rw [if_neg hk']
        show _ = if k' = k then some v else _
        rw [if_neg hk']
    · rw [if_neg hk]
      show (if k' = a then some v else HMap.find k' (HMap.erase k t)) =
        if k' = k then none else if k' = a then some v else HMap.find k' t
      rw [ih]
      by_cases h1 : k' = a
      · subst h1
        rw [if_pos rfl, if_neg (fun hc => hk hc.symm), if_pos rfl]
      · rw [if_neg h1, if_neg h1]

theorem HMap.erase_sublist {K V : Type} [DecidableEq K] {k : K} {m : HMap K V} :
    (HMap.erase k m).Sublist m := by
  induction m with
  | nil => exact List.Sublist.refl _
  | cons p t ih =>
    obtain ⟨a, v⟩ := p
    unfold HMap.erase
    split
    · exact List.sublist_cons_self _ _
    · exact ih.cons_cons _

theorem HMap.wf_erase {K V : Type} [DecidableEq K] {k : K} {m : HMap K V} (h : HMap.Wf m) :
    HMap.Wf (HMap.erase k m) :=
  List.Nodup.sublist (HMap.erase_sublist.map Prod.fst) h

namespace Arena

/-- Alive leaves. -/
def leafP (p : StackNode × Bool) : Bool := p.2 && p.1.isLeaf
/-- Alive leaves of one relevance. -/
def leafAt (k : F64) (p : StackNode × Bool) : Bool := leafP p && decide (p.1.maxRelev = k)

/-- The arena's bookkeeping is exact. -/
structure Wf (a : Arena) : Prop where
  map : HMap.Wf a.relevMap
  absent : ∀ k, HMap.find k a.relevMap = none →
    ∀ (i : ℕ) (n : StackNode), a.nodes[i]? = some (n, true) → n.maxRelev ≠ k
  ids : ∀ k c is, HMap.find k a.relevMap = some (c, is) →
    (∀ i, i ∈ is ↔ ∃ n : StackNode, a.nodes[i]? = some (n, true) ∧ n.maxRelev = k) ∧ is ≠ [] ∧
      c = a.nodes.countP (leafAt k)
  total : a.totalLeaves = a.nodes.countP leafP
  minLe : ∀ k, (HMap.find k a.relevMap).isSome → a.minRelev ≤ k
  minMem : a.relevMap ≠ [] → (HMap.find a.minRelev a.relevMap).isSome
  minMax : a.relevMap = [] → a.minRelev = F64.maxValue

theorem get_eq_some {a : Arena} {i : ℕ} {n : StackNode} :
    a.get i = some n ↔ a.nodes[i]? = some (n, true) := by
  unfold get
  constructor
  · intro h
    split at h
    · rename_i m hm
      rw [hm]; cases h; rfl
    · cases h
  · intro h; rw [h]

theorem Wf.minRelev_le {a : Arena} (h : a.Wf) {i : ℕ} {n : StackNode} (hn : a.get i = some n) :
    a.minRelev ≤ n.maxRelev := by
  rw [get_eq_some] at hn
  refine h.minLe _ ?_
  rw [Option.isSome_iff_ne_none]
  intro hc
  exact h.absent _ hc i n hn rfl

theorem wf_new (softMax : ℕ) : (Arena.new softMax).Wf where
  map := HMap.wf_nil
  absent := by intro k _ i n hn; simp [Arena.new] at hn
  ids := by intro k c is h; simp [Arena.new, HMap.find] at h
  total := rfl
  minLe := by intro k h; simp [Arena.new, HMap.find] at h
  minMem := by intro h; exact absurd rfl h
  minMax := fun _ => rfl

theorem getElem?_removeAll (ids : List ℕ) (l : List (StackNode × Bool)) (i : ℕ) :
    (ids.foldl removeAt l)[i]? =
      (l[i]?).map (fun p => if i ∈ ids then (p.1, false) else p) := by
  induction ids generalizing l with
  | nil => simp
  | cons j t ih =>
    rw [List.foldl_cons, ih]
    unfold removeAt
    rw [List.getElem?_modify]
    cases hl : l[i]? with
    | none => simp
    | some p =>
      simp only [Option.map_some]
      by_cases h1 : j = i
      · subst h1
        simp
      · have h2 : i ≠ j := fun hc => h1 hc.symm
        simp [h1, h2]

theorem length_removeAll (ids : List ℕ) (l : List (StackNode × Bool)) :
    (ids.foldl removeAt l).length = l.length := by
  induction ids generalizing l with
  | nil => rfl
  | cons j t ih => rw [List.foldl_cons, ih]; simp [removeAt]

theorem removeAll_map_fst (ids : List ℕ) (l : List (StackNode × Bool)) :
    (ids.foldl removeAt l).map Prod.fst = l.map Prod.fst := by
  refine List.ext_getElem? fun i => ?_
  rw [List.getElem?_map, List.getElem?_map, getElem?_removeAll]
  cases l[i]? with
  | none => rfl
  | some p => simp only [Option.map_some]; split <;> rfl

/-- Removing exactly the alive nodes of relevance `k`. -/
theorem removeAll_eq {k : F64} {is : List ℕ} {l : List (StackNode × Bool)}
    (h : ∀ i, i ∈ is ↔ ∃ n, l[i]? = some (n, true) ∧ n.maxRelev = k) :
    is.foldl removeAt l = l.map (fun p => (p.1, p.2 && decide (p.1.maxRelev ≠ k))) := by
  refine List.ext_getElem? fun i => ?_
  rw [getElem?_removeAll, List.getElem?_map]
  cases hl : l[i]? with
  | none => rfl
  | some p =>
    obtain ⟨n, b⟩ := p
    simp only [Option.map_some]
    congr 1
    have hi := h i
    rw [hl] at hi
    by_cases hm : i ∈ is
    · rw [if_pos hm]
      obtain ⟨m, h1, h2⟩ := hi.1 hm
      cases h1
      simp [h2]
    · rw [if_neg hm]
      cases b with
      | false => simp
      | true =>
        have : n.maxRelev ≠ k := fun hc => hm (hi.2 ⟨n, rfl, hc⟩)
        simp [this]

theorem countP_split (k : F64) (l : List (StackNode × Bool)) :
    l.countP leafP = l.countP (leafAt k) +
      (l.map (fun p => (p.1, p.2 && decide (p.1.maxRelev ≠ k)))).countP leafP := by
  induction l with
  | nil => rfl
  | cons p t ih =>
    obtain ⟨n, b⟩ := p
    rw [List.map_cons, List.countP_cons, List.countP_cons, List.countP_cons, ih]
    unfold leafAt leafP
    cases b <;> cases n.isLeaf <;> by_cases h : n.maxRelev = k <;> simp [h] <;> omega

theorem countP_other {k k' : F64} (h : k' ≠ k) (l : List (StackNode × Bool)) :
    (l.map (fun p => (p.1, p.2 && decide (p.1.maxRelev ≠ k)))).countP (leafAt k') =
      l.countP (leafAt k') := by
  induction l with
  | nil => rfl
  | cons p t ih =>
    obtain ⟨n, b⟩ := p
    rw [List.map_cons, List.countP_cons, List.countP_cons, ih]
    congr 1
    unfold leafAt leafP
    by_cases h' : n.maxRelev = k'
    · have : n.maxRelev ≠ k := fun hc => h (h'.symm.trans hc)
      cases b <;> simp [h', h]
    · simp [h']

theorem smallestKey_spec {m : HMap F64 (ℕ × List ℕ)} :
    (m = [] → smallestKey m = F64.maxValue) ∧
    (m ≠ [] → smallestKey m ∈ m.map Prod.fst) ∧
    (∀ k ∈ m.map Prod.fst, smallestKey m ≤ k) := by
  unfold smallestKey
  refine ⟨by rintro rfl; rfl, ?_, ?_⟩
  · intro h
    cases hm : (m.map Prod.fst).min? with
    | none => rw [List.min?_eq_none_iff, List.map_eq_nil_iff] at hm; exact absurd hm h
    | some a =>
      simp only [Option.getD_some]
      exact List.min?_mem hm
  · intro k hk
    cases hm : (m.map Prod.fst).min? with
    | none => rw [List.min?_eq_none_iff] at hm; rw [hm] at hk; cases hk
    | some a =>
      simp only [Option.getD_some]
      exact (List.le_min?_iff hm (x := a)).1 le_rfl k hk

theorem Wf.cullMin {a : Arena} (h : a.Wf)  : a.cullMin.Wf := by
  unfold Arena.cullMin
  cases hf : HMap.find a.minRelev a.relevMap with
  | none =>
    simp only
    obtain ⟨s1, s2, s3⟩ := smallestKey_spec (m := a.relevMap)
    exact ⟨h.map, h.absent, h.ids, h.total, fun k hk => s3 k (HMap.mem_keys_iff.2 hk),
      fun hne => HMap.mem_keys_iff.1 (s2 hne), s1⟩
  | some p =>
    obtain ⟨c, is⟩ := p
    simp only
    obtain ⟨h1, h2, h3⟩ := h.ids _ c is hf
    obtain ⟨s1, s2, s3⟩ := smallestKey_spec (m := HMap.erase a.minRelev a.relevMap)
    rw [removeAll_eq h1]
    have hget : ∀ (i : ℕ) (n : StackNode), (a.nodes.map (fun p => (p.1, p.2 && decide (p.1.maxRelev ≠ a.minRelev))))[i]? =
        some (n, true) ↔ a.nodes[i]? = some (n, true) ∧ n.maxRelev ≠ a.minRelev := by
      intro i n
      rw [List.getElem?_map]
      cases hl : a.nodes[i]? with
      | none => simp
      | some q =>
        obtain ⟨m, b⟩ := q
        simp only [Option.map_some, Option.some.injEq, Prod.mk.injEq, Bool.and_eq_true,
          decide_eq_true_eq]
        constructor
        · rintro ⟨rfl, h4, h5⟩; exact ⟨⟨rfl, h4⟩, h5⟩
        · rintro ⟨⟨rfl, h4⟩, h5⟩; exact ⟨rfl, h4, h5⟩
    refine ⟨HMap.wf_erase h.map, ?_, ?_, ?_, fun k hk => s3 k (HMap.mem_keys_iff.2 hk),
      fun hne => HMap.mem_keys_iff.1 (s2 hne), s1⟩
    · intro k hk i n hn
      rw [hget] at hn
      simp only at hk
      rw [HMap.find_erase h.map] at hk
      by_cases hkk : k = a.minRelev
      · rw [hkk]; exact hn.2
      · rw [if_neg hkk] at hk
        exact h.absent k hk i n hn.1
    · intro k c' is' hk
      simp only at hk
      rw [HMap.find_erase h.map] at hk
      by_cases hkk : k = a.minRelev
      · rw [if_pos hkk] at hk; cases hk
      · rw [if_neg hkk] at hk
        obtain ⟨g1, g2, g3⟩ := h.ids k c' is' hk
        refine ⟨?_, g2, ?_⟩
        · intro i
          rw [g1 i]
          constructor
          · rintro ⟨n, e1, e2⟩
            exact ⟨n, (hget i n).2 ⟨e1, by rw [e2]; exact hkk⟩, e2⟩
          · rintro ⟨n, e1, e2⟩
            exact ⟨n, ((hget i n).1 e1).1, e2⟩
        · rw [g3]
          exact (countP_other hkk a.nodes).symm
    · simp only
      rw [h.total, countP_split a.minRelev, h3]
      omega

theorem Wf.cullMin_get {a : Arena} (h : a.Wf) {i : ℕ} {n : StackNode} :
    a.cullMin.get i = some n ↔ a.get i = some n ∧ n.maxRelev ≠ a.minRelev := by
  unfold Arena.cullMin
  rw [get_eq_some, get_eq_some]
  cases hf : HMap.find a.minRelev a.relevMap with
  | none =>
    simp only
    exact ⟨fun hn => ⟨hn, h.absent _ hf i n hn⟩, fun hn => hn.1⟩
  | some p =>
    obtain ⟨c, is⟩ := p
    simp only
    obtain ⟨h1, h2, h3⟩ := h.ids _ c is hf
    rw [removeAll_eq h1, List.getElem?_map]
    cases hl : a.nodes[i]? with
    | none => simp
    | some q =>
      obtain ⟨m, b⟩ := q
      simp only [Option.map_some, Option.some.injEq, Prod.mk.injEq, Bool.and_eq_true,
        decide_eq_true_eq]
      constructor
      · rintro ⟨rfl, h4, h5⟩; exact ⟨⟨rfl, h4⟩, h5⟩
      · rintro ⟨⟨rfl, h4⟩, h5⟩; exact ⟨rfl, h4, h5⟩

/-- Inserting a node (stackable.rs:87-97), before `min_relev` is adjusted. -/
def inserted (a : Arena) (n : StackNode) : Arena :=
  { a with nodes := a.nodes ++ [(n, true)],
           relevMap := HMap.upsert n.maxRelev (0, [])
             (fun p => (p.1 + (if n.children.length = 0 then 1 else 0), p.2 ++ [a.nodes.length]))
             a.relevMap,
           totalLeaves := a.totalLeaves + (if n.children.length = 0 then 1 else 0) }

theorem add_eq (a : Arena) (n : StackNode) : a.add n =
    if a.softMax ≤ a.totalLeaves ∧ n.maxRelev < a.minRelev then some (a, none)
    else if a.totalLeaves < a.softMax then
      some ({ inserted a n with
        minRelev := if n.maxRelev < a.minRelev then n.maxRelev else a.minRelev },
        some a.nodes.length)
    else if a.minRelev < n.maxRelev then
      match HMap.find a.minRelev (inserted a n).relevMap with
      | none => none
      | some (count, _) =>
        if a.softMax ≤ (inserted a n).totalLeaves - count then
          some ((inserted a n).cullMin, some a.nodes.length)
        else some (inserted a n, some a.nodes.length)
    else some (inserted a n, some a.nodes.length) := rfl

theorem find_inserted (a : Arena) (n : StackNode) (k : F64) :
    HMap.find k (inserted a n).relevMap =
      if k = n.maxRelev then
        some (((HMap.find n.maxRelev a.relevMap).getD (0, [])).1 +
            (if n.children.length = 0 then 1 else 0),
          ((HMap.find n.maxRelev a.relevMap).getD (0, [])).2 ++ [a.nodes.length])
      else HMap.find k a.relevMap := by
  unfold inserted
  simp only
  rw [HMap.find_upsert]

theorem getElem?_inserted (a : Arena) (n : StackNode) (i : ℕ) :
    (inserted a n).nodes[i]? =
      if i < a.nodes.length then a.nodes[i]? else if i = a.nodes.length then some (n, true)
      else none := by
  unfold inserted
  simp only
  rw [List.getElem?_append]
  by_cases h : i < a.nodes.length
  · rw [if_pos h, if_pos h]
  · rw [if_neg h, if_neg h]
    by_cases h2 : i = a.nodes.length
    · subst h2; simp
    · rw [if_neg h2, List.getElem?_eq_none]
      simp only [List.length_cons, List.length_nil]
      omega

theorem isLeaf_iff (n : StackNode) : n.isLeaf = true ↔ n.children.length = 0 := by
  unfold StackNode.isLeaf; simp

/-- Inserting keeps the bookkeeping exact except for the smallest relevance. -/
theorem Wf.inserted {a : Arena} (h : a.Wf) {n : StackNode}  {m : F64}
    (hm : m = if n.maxRelev < a.minRelev then n.maxRelev else a.minRelev)
    (hn : n.maxRelev ≤ F64.maxValue) :
    ({ inserted a n with minRelev := m } : Arena).Wf := by
  have hlen : ∀ i (x : StackNode × Bool), a.nodes[i]? = some x → i < a.nodes.length := by
    intro i x hx
    by_contra hc
    rw [List.getElem?_eq_none (by omega)] at hx
    cases hx
  have hnn : m ≤ n.maxRelev := by
    rw [hm]; split
    · exact le_rfl
    · rename_i hc; exact not_lt.1 hc
  refine ⟨HMap.wf_upsert h.map, ?_, ?_, ?_, ?_, ?_, ?_⟩
  · intro k hk i x hx
    simp only at hk hx
    rw [find_inserted] at hk
    rw [getElem?_inserted] at hx
    by_cases hkn : k = n.maxRelev
    · rw [if_pos hkn] at hk; cases hk
    · rw [if_neg hkn] at hk
      split at hx
      · exact h.absent k hk i x hx
      · split at hx
        · cases hx; exact fun hc => hkn hc.symm
        · cases hx
  · intro k c is hk
    simp only at hk ⊢
    rw [find_inserted] at hk
    have hcount : ∀ k, (Arena.inserted a n).nodes.countP (leafAt k) = a.nodes.countP (leafAt k) +
        (if n.children.length = 0 ∧ n.maxRelev = k then 1 else 0) := by
      intro k
      unfold Arena.inserted
      simp only
      rw [List.countP_append, List.countP_singleton]
      congr 1
      unfold leafAt leafP
      simp only [Bool.true_and, Bool.and_eq_true, decide_eq_true_eq, isLeaf_iff]
    by_cases hkn : k = n.maxRelev
    · rw [if_pos hkn] at hk
      cases hk
      refine ⟨?_, by simp, ?_⟩
      · intro i
        rw [List.mem_append, List.mem_singleton]
        rw [getElem?_inserted]
        have hold : i ∈ ((HMap.find n.maxRelev a.relevMap).getD (0, [])).2 ↔
            ∃ x, a.nodes[i]? = some (x, true) ∧ x.maxRelev = k := by
          rw [hkn]
          cases hf : HMap.find n.maxRelev a.relevMap with
          | none =>
            simp only [Option.getD_none, List.not_mem_nil, false_iff, not_exists, not_and]
            intro x hx
            exact h.absent _ hf i x hx
          | some p =>
            obtain ⟨c, is⟩ := p
            exact (h.ids _ c is hf).1 i
        rw [hold]
        constructor
        · rintro (⟨x, e1, e2⟩ | rfl)
          · exact ⟨x, by rw [if_pos (hlen i _ e1)]; exact e1, e2⟩
          · exact ⟨n, by rw [if_neg (by omega), if_pos rfl], hkn.symm⟩
        · rintro ⟨x, e1, e2⟩
          split at e1
          · exact Or.inl ⟨x, e1, e2⟩
          · split at e1
            · rename_i h4; exact Or.inr h4
            · cases e1
      · rw [hcount]
        have hc : ((HMap.find n.maxRelev a.relevMap).getD (0, [])).1 = a.nodes.countP (leafAt k) := by
          rw [hkn]
          cases hf : HMap.find n.maxRelev a.relevMap with
          | none =>
            simp only [Option.getD_none]
            symm
            rw [List.countP_eq_zero]
            rintro ⟨x, b⟩ hx
            unfold leafAt leafP
            intro hc
            simp only [Bool.and_eq_true, decide_eq_true_eq] at hc
            obtain ⟨i, hi⟩ := List.mem_iff_getElem?.1 hx
            rw [hc.1.1] at hi
            exact h.absent _ hf i x hi hc.2
          | some p =>
            obtain ⟨c, is⟩ := p
            exact (h.ids _ c is hf).2.2
        rw [hc]
        congr 1
        simp [hkn]
    · rw [if_neg hkn] at hk
      obtain ⟨g1, g2, g3⟩ := h.ids k c is hk
      refine ⟨?_, g2, ?_⟩
      · intro i
        rw [g1 i, getElem?_inserted]
        constructor
        · rintro ⟨x, e1, e2⟩
          exact ⟨x, by rw [if_pos (hlen i _ e1)]; exact e1, e2⟩
        · rintro ⟨x, e1, e2⟩
          split at e1
          · exact ⟨x, e1, e2⟩
          · split at e1
            · cases e1; exact absurd e2.symm hkn
            · cases e1
      · rw [hcount, g3, if_neg (fun hc => hkn hc.2.symm)]
        rfl
  · simp only
    unfold Arena.inserted
    simp only
    rw [List.countP_append, List.countP_singleton, h.total]
    congr 1
    unfold leafP
    simp only [Bool.true_and, isLeaf_iff]
  · intro k hk
    simp only at hk ⊢
    rw [find_inserted] at hk
    by_cases hkn : k = n.maxRelev
    · rw [hkn]; exact hnn
    · rw [if_neg hkn] at hk
      refine le_trans ?_ (h.minLe k hk)
      rw [hm]; split
      · rename_i hc; exact hc.le
      · exact le_rfl
  · intro _
    simp only
    rw [find_inserted]
    by_cases hmn : m = n.maxRelev
    · rw [if_pos hmn]; rfl
    · rw [if_neg hmn]
      have hma : m = a.minRelev := by
        rw [hm] at hmn ⊢
        split at hmn
        · exact absurd rfl hmn
        · rename_i hc; rw [if_neg hc]
      rw [hma]
      refine h.minMem ?_
      intro hc
      have := h.minMax hc
      rw [hma, this] at hnn hmn
      exact hmn (le_antisymm hnn hn)
  · intro hc
    have h0 := find_inserted a n n.maxRelev
    simp only at hc
    rw [hc, if_pos rfl] at h0
    cases h0

end Arena

end Carmen

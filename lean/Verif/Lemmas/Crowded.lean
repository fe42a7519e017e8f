import Verif.Lemmas.Regroup

/-!
# What is in a tree when the limit was reached
-/

namespace Carmen
open Spec

/-- The way to a node of the tree. -/
def WayTo (t : StackTree) (i : ℕ) (n : StackNode) (qs : List Subquery) : Prop :=
  ∃ p, TreePath t t.root (p ++ [n]) ∧ (p ++ [n]).map StackNode.pm = qs.map some ∧
    i ∈ (p.getLast?.getD t.root).children ∧ t.arena.get i = some n

theorem below_path {t : StackTree} : ∀ {cs : List ℕ} {i : ℕ}, Below t cs i →
    ∀ {p : List StackNode}, TreePath t t.root p → cs = (p.getLast?.getD t.root).children →
    ∃ p' n, TreePath t t.root (p' ++ [n]) ∧ i ∈ (p'.getLast?.getD t.root).children ∧
      t.arena.get i = some n := by
  intro cs i h
  induction h with
  | here h1 h2 =>
    intro p hp hcs
    subst hcs
    exact ⟨p, _, treePath_append.2 ⟨hp, ⟨_, h1, h2⟩, trivial⟩, h1, h2⟩
  | down h1 h2 _ ih =>
    intro p hp hcs
    subst hcs
    exact ih (p := p ++ [_]) (treePath_append.2 ⟨hp, ⟨_, h1, h2⟩, trivial⟩) (by simp)

/-- Every node has a stack, and different nodes have different ones. -/
theorem stack_at {sm : ℕ} {pms : List Subquery} {t : StackTree}
    (h : stackableWith sm pms = some t) (hnd : pms.Nodup)
    (hw : ∀ q ∈ pms, q.weight.IsFin ∧ q.weight ≤ 1) :
    ∃ f : ℕ → List Subquery, (∀ i n, t.arena.get i = some n → WayTo t i n (f i)) ∧
      ∀ i j n m, t.arena.get i = some n → t.arena.get j = some m → f i = f j → i = j := by
  have hex : ∀ i, ∃ qs, ∀ n, t.arena.get i = some n → WayTo t i n qs := by
    intro i
    cases hi : t.arena.get i with
    | none => exact ⟨[], fun n hn => by cases hn⟩
    | some n =>
      obtain ⟨p, m, h1, h2, h3⟩ := below_path ((stackable_keeps h hw).2.2 i n hi) (p := [])
        trivial rfl
      obtain ⟨qs, h4, _⟩ := C30_paths_are_stacks h h1
      refine ⟨qs, fun n' hn' => ?_⟩
      rw [h3] at hi
      cases hi
      cases hn'
      exact ⟨p, h1, h4, h2, h3⟩
  choose f hf using hex
  refine ⟨f, hf, ?_⟩
  intro i j n m hi hj hij
  obtain ⟨p, p1, p2, p3, p4⟩ := hf i n hi
  obtain ⟨p', p1', p2', p3', p4'⟩ := hf j m hj
  rw [hij] at p2
  have he := path_unique (count_le_one h hnd _) p1 p1' p2 p2'
  obtain ⟨e1, e2⟩ := List.append_inj' he rfl
  obtain rfl := List.singleton_inj.1 e2
  subst e1
  rw [List.map_append] at p2
  obtain ⟨qs, qt, e3, e4, e5⟩ := List.map_eq_append_iff.1 p2.symm
  obtain ⟨q, rfl, e6⟩ := map_eq_one e5
  have h1 := count_append_le (rs := [q]) (treePath_append.1 p1).1 e4.symm
  exact child_unique (h1.trans (count_le_one h hnd (qs ++ [q]))) p3 p3' p4 p4' e6.symm e6.symm

/-- The nodes of the tree are stacks. -/
theorem scans_of_stacks {sm : ℕ} {pms : List Subquery} {t : StackTree}
    (h : stackableWith sm pms = some t) (hnd : pms.Nodup)
    (hw : ∀ q ∈ pms, q.weight.IsFin ∧ q.weight ≤ 1) :
    ∃ l : List (List Subquery), l.Nodup ∧ (∀ qs ∈ l, qs ≠ [] ∧ IsStack pms qs) ∧
      scansOf t = lastScans l := by
  obtain ⟨f, hf, hinj⟩ := stack_at h hnd hw
  have hget : ∀ x ∈ t.arena.nodes.zipIdx.filter (fun x => x.1.2), t.arena.get x.2 = some x.1.1 := by
    rintro ⟨⟨n, b⟩, i⟩ hx
    obtain ⟨h1, h2⟩ := List.mem_filter.1 hx
    rw [List.mem_zipIdx_iff_getElem?] at h1
    simp only at h1 h2
    subst h2
    exact Arena.get_eq_some.2 h1
  refine ⟨(t.arena.nodes.zipIdx.filter fun x => x.1.2).map fun x => f x.2, ?_, ?_, ?_⟩
  · have hnd' : ((t.arena.nodes.zipIdx.filter fun x => x.1.2).map Prod.snd).Nodup := by
      refine List.Nodup.sublist (List.filter_sublist.map _) ?_
      rw [List.zipIdx_map_snd]
      exact List.nodup_range'
    have := hnd'.map_on (f := f) ?_
    · rwa [List.map_map] at this
    · intro i hi j hj hij
      obtain ⟨x, hx, rfl⟩ := List.mem_map.1 hi
      obtain ⟨y, hy, rfl⟩ := List.mem_map.1 hj
      exact hinj _ _ _ _ (hget x hx) (hget y hy) hij
  · intro qs hqs
    obtain ⟨x, hx, rfl⟩ := List.mem_map.1 hqs
    obtain ⟨p, p1, p2, p3, p4⟩ := hf _ _ (hget x hx)
    refine ⟨?_, path_isStack h p1 p2⟩
    intro hnil
    rw [hnil] at p2
    simp at p2
  · unfold scansOf lastScans
    conv_lhs => rw [← List.zipIdx_map_fst 0 t.arena.nodes]
    rw [List.filter_map, List.flatMap_map, List.flatMap_map]
    refine List.flatMap_congr fun x hx => ?_
    obtain ⟨p, p1, p2, p3, p4⟩ := hf _ _ (hget x hx)
    have : (f x.2).getLast? = x.1.1.pm := by
      have e := congrArg List.getLast? p2
      rw [List.map_append, List.map_singleton, List.getLast?_concat, List.getLast?_map] at e
      cases hl : (f x.2).getLast? with
      | none => rw [hl] at e; cases e
      | some q => rw [hl] at e; exact (Option.some.inj e).symm
    rw [this]

/-- When a stack is missing there are enough leaves, none of which comes below another one. -/
theorem missing_leaves {sm : ℕ} {pms : List Subquery} {t : StackTree}
    (h : stackableWith sm pms = some t) (hnd : pms.Nodup)
    (hw : ∀ q ∈ pms, q.weight.IsFin ∧ q.weight ≤ 1) {qs : List Subquery} (hm : Missing pms t qs) :
    ∃ l : List (List Subquery), l.length = sm ∧
      (l.Pairwise fun a b => ¬ a <+: b ∧ ¬ b <+: a) ∧ ∀ ls ∈ l, LeafStack t ls := by
  obtain ⟨f, hf, hinj⟩ := stack_at h hnd hw
  obtain ⟨is, h1, h2, h3⟩ := C59_leaves h hw hm
  have hno : ∀ {i j n m}, t.arena.get i = some n → t.arena.get j = some m → n.isLeaf = true →
      i ≠ j → ¬ f i <+: f j := by
    rintro i j n m hi hj hleaf hne ⟨rest, hrest⟩
    obtain ⟨p, p1, p2, p3, p4⟩ := hf i n hi
    obtain ⟨p', p1', p2', p3', p4'⟩ := hf j m hj
    cases rest with
    | nil => exact hne (hinj i j n m hi hj (by simpa using hrest))
    | cons q rest =>
      rw [← hrest, List.map_append (l₁ := f i)] at p2'
      obtain ⟨a, b, e1, e2, e3⟩ := List.map_eq_append_iff.1 p2'
      rw [e1] at p1'
      obtain ⟨g1, g2⟩ := treePath_append.1 p1'
      have he := path_unique (count_le_one h hnd _) p1 g1 p2 e2
      rw [← he, List.getLast?_concat] at g2
      cases b with
      | nil => cases e3
      | cons x b =>
        obtain ⟨⟨c, hc, _⟩, _⟩ := g2
        have : n.children = [] := by
          unfold StackNode.isLeaf at hleaf
          simpa using hleaf
        simp only [Option.getD_some] at hc
        rw [this] at hc
        cases hc
  refine ⟨(is.take sm).map f, ?_, ?_, ?_⟩
  · rw [List.length_map, List.length_take]
    omega
  · rw [List.pairwise_map]
    refine List.Pairwise.imp_of_mem ?_ (h1.sublist (List.take_sublist _ _))
    intro i j hi hj hne
    obtain ⟨_, n, hn, hl⟩ := h3 i (List.mem_of_mem_take hi)
    obtain ⟨_, m, hm, hl'⟩ := h3 j (List.mem_of_mem_take hj)
    exact ⟨hno hn hm hl hne, hno hm hn hl' (Ne.symm hne)⟩
  · intro ls hls
    obtain ⟨i, hi, rfl⟩ := List.mem_map.1 hls
    obtain ⟨_, n, hn, hl⟩ := h3 i (List.mem_of_mem_take hi)
    obtain ⟨p, p1, p2, -, -⟩ := hf i n hn
    exact ⟨p, n, p1, hl, p2⟩

/-! ## Relevance -/

theorem fin_of_add {a b : F64} {s : ℚ} (hb : b.IsFin) (h : a + b = .fin s) : a.IsFin := by
  obtain ⟨w, rfl⟩ := hb.exists
  rw [F64.add_def] at h
  cases a with
  | nan => cases h
  | inf neg => cases h
  | fin x => trivial

theorem stackRelev_concat (qs : List Subquery) (q : Subquery) :
    stackRelev (qs ++ [q]) = stackRelev qs + q.weight := by
  unfold stackRelev
  rw [List.foldl_append]
  rfl

/-- A stack is no more relevant than what begins with it. -/
theorem stackRelev_le {qs : List Subquery} {q : Subquery} {s : ℚ}
    (hw : ∀ x ∈ qs ++ [q], x.weight.IsFin ∧ 0 ≤ x.weight) (h : stackRelev (qs ++ [q]) = .fin s) :
    ∃ r, stackRelev qs = .fin r ∧ r ≤ s := by
  have hq := hw q (by simp)
  rw [stackRelev_concat] at h
  have hfin := fin_of_add hq.1 h
  have hv : (stackRelev qs).Valid := by
    rcases List.eq_nil_or_concat qs with rfl | ⟨l, x, rfl⟩
    · exact F64.valid_natCast (n := 0) (by norm_num)
    · rw [List.concat_eq_append] at hw hfin ⊢
      have hx := hw x (by simp)
      rw [stackRelev_concat] at hfin ⊢
      obtain ⟨y, hy⟩ := hfin.exists
      obtain ⟨a, ha⟩ := (fin_of_add hx.1 hy).exists
      obtain ⟨b, hb⟩ := hx.1.exists
      rw [ha, hb]
      exact F64.ofRat_valid _
  obtain ⟨r, hr⟩ := hfin.exists
  refine ⟨r, hr, ?_⟩
  have := F64.le_add_right' hfin hq.1 hv hq.2
  rw [h, hr] at this
  exact F64.fin_le_fin.1 this

/-- What keeps a stack out of the tree. -/
theorem crowd_of_missing {sm : ℕ} {pms : List Subquery} {t : StackTree}
    (h : stackableWith sm pms = some t) (hnd : pms.Nodup)
    (hw : ∀ q ∈ pms, q.weight.IsFin ∧ 0 ≤ q.weight ∧ q.weight ≤ 1)
    (hk : (pms.map fun q => q.store.typeId).dedup.length ≤ 62)
    {qs : List Subquery} (hm : ¬ Whole pms t qs) :
    ∃ l : List (List Subquery), l.length = sm ∧
      (l.Pairwise fun a b => ¬ a <+: b ∧ ¬ b <+: a) ∧ ∀ ls ∈ l, IsStack pms ls ∧
      ∃ s v, stackRelev qs = .fin s ∧ stackRelev ls = .fin v ∧ s < v + 1 / 2 ^ 41 := by
  have hw' : ∀ q ∈ pms, q.weight.IsFin ∧ q.weight ≤ 1 := fun q hq => ⟨(hw q hq).1, (hw q hq).2.2⟩
  have hstack : ∀ {ls}, LeafStack t ls → IsStack pms ls := by
    rintro ls ⟨p, m, h1, -, h2⟩
    exact path_isStack h h1 h2
  have hcase : Missing pms t qs ∨ ∃ q, Missing pms t (qs ++ [q]) := by
    unfold Whole at hm
    by_contra hcon
    push Not at hcon
    exact hm ⟨hcon.1, hcon.2⟩
  rcases hcase with hm | ⟨q, hm⟩
  · obtain ⟨l, h1, h2, h3⟩ := missing_leaves h hnd hw' hm
    exact ⟨l, h1, h2, fun ls hls => ⟨hstack (h3 ls hls), C59_rounded_partial h hw hk hm (h3 ls hls)⟩⟩
  · obtain ⟨l, h1, h2, h3⟩ := missing_leaves h hnd hw' hm
    refine ⟨l, h1, h2, fun ls hls => ⟨hstack (h3 ls hls), ?_⟩⟩
    obtain ⟨s, v, e1, e2, e3⟩ := C59_rounded_partial h hw hk hm (h3 ls hls)
    obtain ⟨r, e4, e5⟩ := stackRelev_le (fun x hx =>
      ⟨(hw x (hm.1.mem x hx)).1, (hw x (hm.1.mem x hx)).2.1⟩) e1
    exact ⟨r, v, e4, e2, lt_of_le_of_lt e5 e3⟩

theorem stackRelev_bare {a b : List Subquery} (h : a.map bare = b.map bare) :
    stackRelev a = stackRelev b := by
  have : ∀ l : List Subquery, stackRelev l = stackRelev (l.map bare) := by
    intro l
    unfold stackRelev
    rw [List.foldl_map]
    rfl
  rw [this a, this b, h]

section
variable {qs out : List Subquery} {rep : Subquery → Subquery}
  {orig : Subquery → KeyWithId → Subquery} {grp : Subquery → Subquery}
  (hr : Regroups qs out rep orig grp)
include hr

theorem Regroups.fewTypes (hf : FewTypes qs) : FewTypes out := by
  refine ⟨fun q hq => ?_, le_trans ?_ hf.types⟩
  · obtain ⟨h1, h2⟩ := hr.rep_mem q hq
    have : (bare (rep q)).weight = (bare q).weight := by rw [h2]
    have : (rep q).weight = q.weight := this
    rw [← this]
    exact hf.weights _ h1
  · refine ((List.nodup_dedup _).subperm fun x hx => ?_).length_le
    rw [List.mem_dedup] at hx ⊢
    obtain ⟨q, hq, rfl⟩ := List.mem_map.1 hx
    obtain ⟨h1, h2⟩ := hr.rep_mem q hq
    rw [← store_of_bare h2]
    exact List.mem_map_of_mem (f := fun q : Subquery => q.store.typeId) h1

/-- What keeps a stack of groups out of the tree. -/
theorem Regroups.crowded {sm : ℕ} {t : StackTree} (h : stackableWith sm out = some t)
    (hw : WeightsOk qs) (hf : FewTypes qs) {xs ys : List Subquery} (hb : xs.map bare = ys.map bare)
    (hm : ¬ Whole out t xs) : Crowded sm qs ys := by
  have hw' := hr.weightsOk hw
  have hf' := hr.fewTypes hf
  obtain ⟨l, h1, h2, h3⟩ := crowd_of_missing h hr.nodup
    (fun q hq => ⟨(hw' q hq).1, (hw' q hq).2.2, hf'.weights q hq⟩) hf'.types hm
  refine ⟨l.map (List.map rep), by rw [List.length_map, h1], ?_, ?_⟩
  · rw [List.pairwise_map]
    have key : ∀ {a b : List Subquery}, (∀ q ∈ a, q ∈ out) → (∀ q ∈ b, q ∈ out) → ¬ a <+: b →
        ¬ groupKeys (a.map rep) <+: groupKeys (b.map rep) := by
      intro a b ha hb hab hp
      rw [(hr.map_rep ha).2.1, (hr.map_rep hb).2.1] at hp
      obtain ⟨r, hr'⟩ := hp
      obtain ⟨b1, b2, e1, e2, e3⟩ := List.map_eq_append_iff.1 hr'.symm
      rw [hr.lists_inj (b := b1) ha (fun q hq => hb q (by rw [e1]; simp [hq])) e2.symm] at hab
      exact hab ⟨b2, e1.symm⟩
    refine List.Pairwise.imp_of_mem ?_ h2
    intro a b ha hb ⟨g1, g2⟩
    exact ⟨key (h3 a ha).1.mem (h3 b hb).1.mem g1, key (h3 b hb).1.mem (h3 a ha).1.mem g2⟩
  · intro ls hls
    obtain ⟨a, ha, rfl⟩ := List.mem_map.1 hls
    obtain ⟨g1, s, v, g2, g3, g4⟩ := h3 a ha
    obtain ⟨e1, -, e3⟩ := hr.map_rep g1.mem
    exact ⟨isStack_move e1 e3 g1, s, v, by rw [← stackRelev_bare hb]; exact g2,
      by rw [stackRelev_bare e1]; exact g3, g4⟩

end

end Carmen

import Verif.Props.StackBest

/-!
# No stack is in a tree twice, whether the limit was reached or not
-/

namespace Carmen
open Spec

/-- Each phrase match of a node is the label of one child at most. -/
theorem countPaths_le {t : StackTree} {K : List Ghost} (hinv : GhostInv K)
    (hthin : ∀ g ∈ K, Thin K g) (hnodes : K.map Ghost.node = t.arena.nodes.map Prod.fst)
    {qs : List Subquery} : ∀ {g : Ghost}, NodeOk K g → Thin K g →
    (g.bins.flatMap PmBin.pms).Nodup → countPaths t g.node qs ≤ 1 := by
  induction qs with
  | nil => intro g _ _ _; exact le_rfl
  | cons q qs ih =>
    intro g hg hth hnd
    unfold countPaths
    have hle : ∀ c ∈ g.node.children, (match t.arena.get c with
        | some m => if m.pm = some q then countPaths t m qs else 0
        | none => 0) ≤ if (K[c]?).bind (fun g => g.node.pm) = some q then 1 else 0 := by
      intro c hc
      cases hget : t.arena.get c with
      | none => exact Nat.zero_le _
      | some m =>
        obtain ⟨g', e0, pre, b, rest, pm, e1, _, _, e4, _⟩ := hg.child c hc
        obtain ⟨g'', e0', rfl⟩ := get_ghost hnodes hget
        rw [e0] at e0'
        cases e0'
        rw [e0]
        simp only [Option.bind_some]
        split_ifs
        · refine ih (hinv c g' e0).1 (hthin g' (List.mem_of_getElem? e0)) ?_
          rw [e4]
          rw [e1, List.flatMap_append, List.flatMap_cons] at hnd
          exact (List.nodup_append.1 (List.nodup_append.1 hnd).2.1).2.1
        · exact le_rfl
    refine (List.sum_le_sum hle).trans ?_
    rw [sum_labels (K := K) (q := q) (V := 1) fun _ _ => rfl, Nat.mul_one]
    refine (hth.count_le _).trans ?_
    rw [List.count_map_of_injective _ _ (Option.some_injective _), count_fitting]
    split_ifs
    · exact List.nodup_iff_count_le_one.1 hnd q
    · exact Nat.zero_le _

theorem count_le_one {sm : ℕ} {pms : List Subquery} {t : StackTree}
    (h : stackableWith sm pms = some t) (hnd : pms.Nodup) (qs : List Subquery) :
    countPaths t t.root qs ≤ 1 := by
  obtain ⟨K, hK⟩ := stackable_ghost h
  exact countPaths_le (g := ⟨t.root, 0, pmBins pms⟩) hK.inv hK.thin.1 hK.nodes hK.root hK.thin.2
    ((pmBins_perm pms).nodup_iff.2 hnd)

/-- What can be followed below a node can be followed from above. -/
theorem count_append_le {t : StackTree} {rs : List Subquery} : ∀ {p : List StackNode}
    {n : StackNode} {qs : List Subquery}, TreePath t n p → p.map StackNode.pm = qs.map some →
    countPaths t (p.getLast?.getD n) rs ≤ countPaths t n (qs ++ rs)
  | [], n, [], _, _ => le_rfl
  | [], n, q :: qs, _, h => by cases h
  | m :: p, n, [], _, h => by cases h
  | m :: p, n, q :: qs, ⟨⟨c, hc, hm⟩, hp⟩, h => by
    rw [List.map_cons, List.map_cons, List.cons.injEq] at h
    have h1 := count_append_le (rs := rs) hp h.2
    have e : (m :: p).getLast?.getD n = p.getLast?.getD m := by
      cases p with
      | nil => rfl
      | cons a p => rw [List.getLast?_cons_cons, List.getLast?_cons]; rfl
    rw [e, List.cons_append]
    refine le_trans h1 ?_
    conv_rhs => unfold countPaths
    refine le_trans (le_of_eq ?_) (List.le_sum_of_mem (List.mem_map_of_mem (a := c) hc))
    rw [hm]
    simp only
    rw [if_pos h.1]

theorem path_isStack {sm : ℕ} {pms : List Subquery} {t : StackTree}
    (h : stackableWith sm pms = some t) {p : List StackNode} (hp : TreePath t t.root p)
    {qs : List Subquery} (hqs : p.map StackNode.pm = qs.map some) : IsStack pms qs := by
  obtain ⟨K, hK⟩ := stackable_ghost h
  obtain ⟨qs', g', h1, h2, _⟩ := path_chain hK.inv hK.nodes hK.root hp
  rw [hqs] at h1
  have : qs = qs' := by
    have := congrArg (List.filterMap id) h1
    simpa [List.filterMap_map] using this
  subst this
  rw [← chain_iff_isStack]
  have h3 := hK.same
  rw [show (0 : ℕ) = t.root.mask from h3.2.1.symm, show (129 : ℕ) = t.root.idx from h3.2.2.1.symm]
  exact h2

/-- What ever was put below a stack, still there or not, could be put below it. -/
theorem child_extends {sm : ℕ} {pms : List Subquery} {t : StackTree}
    (h : stackableWith sm pms = some t) {p : List StackNode} (hp : TreePath t t.root p)
    {qs : List Subquery} (hqs : p.map StackNode.pm = qs.map some) {c : ℕ}
    (hc : c ∈ (p.getLast?.getD t.root).children) : ∃ q, IsStack pms (qs ++ [q]) := by
  obtain ⟨K, hK⟩ := stackable_ghost h
  -- the tree in which nothing was removed
  let t' : StackTree := ⟨t.root, { t.arena with nodes := K.map fun g => (g.node, true) }⟩
  have hnodes : K.map Ghost.node = t'.arena.nodes.map Prod.fst := by
    show _ = (K.map _).map _
    rw [List.map_map]
    rfl
  have hget : ∀ {i m}, t.arena.get i = some m → t'.arena.get i = some m := by
    intro i m hi
    obtain ⟨g, hg, rfl⟩ := get_ghost hK.nodes hi
    exact get_of_alive (K := K) rfl hg
  have hmono : ∀ (p : List StackNode) (n : StackNode), TreePath t n p → TreePath t' n p := by
    intro p
    induction p with
    | nil => intro n _; trivial
    | cons m p ih =>
      rintro n ⟨⟨c, hc, hm⟩, hp⟩
      exact ⟨⟨c, hc, hget hm⟩, ih m hp⟩
  have hp' := hmono p _ hp
  obtain ⟨qs', g', h1, _, h3, h4, _⟩ := path_chain hK.inv hnodes hK.root hp'
  have h4 : g'.node = p.getLast?.getD t.root := h4
  rw [← h4] at hc
  obtain ⟨gc, e0, pre, b, rest, pm, -, -, -, -, -, e6, -⟩ := h3.child c hc
  have hp2 : TreePath t' t.root (p ++ [gc.node]) :=
    treePath_append.2 ⟨hp', ⟨c, by rw [← h4]; exact hc, get_of_alive (K := K) rfl e0⟩, trivial⟩
  obtain ⟨qs2, _, f1, f2, _⟩ := path_chain hK.inv hnodes hK.root hp2
  have he : qs2 = qs ++ [pm] := by
    refine List.map_injective_iff.2 (Option.some_injective _) ?_
    rw [← f1, List.map_append, hqs, List.map_append]
    simp [e6]
  refine ⟨pm, ?_⟩
  rw [← he, ← chain_iff_isStack]
  have hs := hK.same
  rw [show (0 : ℕ) = t.root.mask from hs.2.1.symm, show (129 : ℕ) = t.root.idx from hs.2.2.1.symm]
  exact f2

/-- Neither the stack nor anything one longer is missing from the tree. -/
def Whole (pms : List Subquery) (t : StackTree) (qs : List Subquery) : Prop :=
  ¬ Missing pms t qs ∧ ∀ q, ¬ Missing pms t (qs ++ [q])

theorem prod_counts {pms qs : List Subquery} (hnd : pms.Nodup) (hs : IsStack pms qs) :
    (qs.map fun q => pms.count q).prod = 1 := by
  refine List.prod_eq_one ?_
  intro x hx
  obtain ⟨q, hq, rfl⟩ := List.mem_map.1 hx
  exact List.count_eq_one_of_mem hnd (hs.mem q hq)

theorem whole_of_lim {sm : ℕ} {pms : List Subquery} {t : StackTree}
    (h : stackableWith sm pms = some t) (hlim : t.arena.totalLeaves < t.arena.softMax)
    (qs : List Subquery) : Whole pms t qs :=
  ⟨fun hm => absurd hm.2 (by rw [C32_complete h hlim hm.1]; exact lt_irrefl _),
    fun q hm => absurd hm.2 (by rw [C32_complete h hlim hm.1]; exact lt_irrefl _)⟩

theorem count_one {sm : ℕ} {pms : List Subquery} {t : StackTree}
    (h : stackableWith sm pms = some t) (hnd : pms.Nodup) {qs : List Subquery}
    (hs : IsStack pms qs) (hm : ¬ Missing pms t qs) : countPaths t t.root qs = 1 := by
  have h1 := count_le_one h hnd qs
  have h2 : ¬ countPaths t t.root qs < 1 := fun hlt => hm ⟨hs, by rw [prod_counts hnd hs]; exact hlt⟩
  omega

end Carmen

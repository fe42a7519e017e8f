import Verif.Model.Bfs
import Verif.Spec.Bfs
import Verif.Props.Stack

/-!
# C68: the traversal lists every stack once
-/

namespace Carmen
open Spec

/-! ## The nodes below a node -/

/-- The ways down from a node, in the order of the traversal: itself, then what is below its last
child, and so on to its first. -/
def downs (t : StackTree) : ℕ → StackNode → List (List ℕ)
  | 0, _ => [[]]
  | k + 1, n => [] :: n.children.reverse.flatMap fun c =>
      match t.arena.get c with
      | some m => (downs t k m).map (c :: ·)
      | none => []

/-- The children of the node, of its children, and so on, come before one another. -/
def Descends (t : StackTree) (k : ℕ) (n : StackNode) : Prop :=
  (∀ c ∈ n.children, c < k) ∧ ∀ c m, t.arena.get c = some m → ∀ d ∈ m.children, d < c

theorem Descends.child {t : StackTree} {k : ℕ} {n m : StackNode} (h : Descends t (k + 1) n)
    {c : ℕ} (hc : c ∈ n.children) (hm : t.arena.get c = some m) : Descends t k m :=
  ⟨fun d hd => lt_of_lt_of_le (h.2 c m hm d hd) (Nat.lt_succ_iff.1 (h.1 c hc)), h.2⟩

theorem Descends.zero {t : StackTree} {n : StackNode} (h : Descends t 0 n) : n.children = [] :=
  List.eq_nil_iff_forall_not_mem.2 fun c hc => absurd (h.1 c hc) (by omega)

theorem mem_downs {t : StackTree} : ∀ {k : ℕ} {n : StackNode}, Descends t k n → ∀ p,
    p ∈ downs t k n ↔ (walk t n p).isSome
  | 0, n, h, p => by
    cases p with
    | nil => simp [downs, walk]
    | cons c p => simp [downs, walk, h.zero]
  | k + 1, n, h, p => by
    cases p with
    | nil => simp [downs, walk]
    | cons c p =>
      simp only [downs, walk, List.mem_cons, List.mem_flatMap, List.mem_reverse, reduceCtorEq,
        false_or]
      constructor
      · rintro ⟨c', hc', hp⟩
        cases hg : t.arena.get c' with
        | none => rw [hg] at hp; simp at hp
        | some m =>
          rw [hg] at hp
          obtain ⟨p', hp', e⟩ := List.mem_map.1 hp
          injection e with e1 e2
          subst e1; subst e2
          rw [if_pos hc', hg]
          exact (mem_downs (h.child hc' hg) p').1 hp'
      · intro hw
        by_cases hc : c ∈ n.children
        · rw [if_pos hc] at hw
          cases hg : t.arena.get c with
          | none => rw [hg] at hw; simp at hw
          | some m =>
            rw [hg] at hw
            refine ⟨c, hc, ?_⟩
            rw [hg]
            exact List.mem_map.2 ⟨p, (mem_downs (h.child hc hg) p).2 hw, rfl⟩
        · rw [if_neg hc] at hw; simp at hw

theorem downs_nodup {t : StackTree} (hnd : ∀ c m, t.arena.get c = some m → m.children.Nodup) :
    ∀ (k : ℕ) {n : StackNode}, n.children.Nodup → (downs t k n).Nodup
  | 0, _, _ => by simp [downs]
  | k + 1, n, hn => by
    refine List.nodup_cons.2 ⟨?_, ?_⟩
    · intro hm
      obtain ⟨c, -, hc⟩ := List.mem_flatMap.1 hm
      cases hg : t.arena.get c with
      | none => rw [hg] at hc; simp at hc
      | some m => rw [hg] at hc; simp at hc
    · refine List.nodup_flatMap.2 ⟨fun c _ => ?_, ?_⟩
      · cases hg : t.arena.get c with
        | none => simp
        | some m =>
          exact (downs_nodup hnd k (hnd c m hg)).map fun a b e => by injection e
      · refine (List.nodup_reverse.2 hn).imp fun {a b} hab => ?_
        intro p hpa hpb
        beta_reduce at hpa hpb
        cases ha : t.arena.get a with
        | none => rw [ha] at hpa; simp at hpa
        | some ma =>
          cases hb : t.arena.get b with
          | none => rw [hb] at hpb; simp at hpb
          | some mb =>
            rw [ha] at hpa; rw [hb] at hpb
            obtain ⟨x, -, rfl⟩ := List.mem_map.1 hpa
            obtain ⟨y, -, e⟩ := List.mem_map.1 hpb
            injection e with e1 e2
            exact hab e1.symm

/-- Nothing comes after something below it. -/
theorem downs_prefix {t : StackTree} : ∀ (k : ℕ) {n : StackNode}, n.children.Nodup →
    (∀ c m, t.arena.get c = some m → m.children.Nodup) →
    (downs t k n).Pairwise fun p q => ¬ q <+: p
  | 0, _, _, _ => by simp [downs]
  | k + 1, n, hn, hnd => by
    refine List.pairwise_cons.2 ⟨?_, ?_⟩
    · intro p hp hq
      obtain ⟨c, -, hc⟩ := List.mem_flatMap.1 hp
      have : p = [] := List.prefix_nil.1 hq
      subst this
      cases hg : t.arena.get c with
      | none => rw [hg] at hc; simp at hc
      | some m => rw [hg] at hc; simp at hc
    · refine List.pairwise_flatMap.2 ⟨fun c _ => ?_, ?_⟩
      · cases hg : t.arena.get c with
        | none => simp
        | some m =>
          refine List.pairwise_map.2 ((downs_prefix k (hnd c m hg) hnd).imp ?_)
          intro a b hab h
          exact hab (List.cons_prefix_cons.1 h).2
      · refine (List.nodup_reverse.2 hn).imp fun {a b} hab => ?_
        intro x hx y hy hp
        cases ha : t.arena.get a with
        | none => rw [ha] at hx; simp at hx
        | some ma =>
          cases hb : t.arena.get b with
          | none => rw [hb] at hy; simp at hy
          | some mb =>
            rw [ha] at hx; rw [hb] at hy
            obtain ⟨x', -, rfl⟩ := List.mem_map.1 hx
            obtain ⟨y', -, rfl⟩ := List.mem_map.1 hy
            exact hab (List.cons_prefix_cons.1 hp).1.symm

/-! ## The loop -/

theorem bfsPush_eq (t : StackTree) (n : StackNode) (rest : List StackNode) :
    bfsPush t n rest = n.children.reverse.filterMap t.arena.get ++ rest := by
  have h : ∀ (cs : List ℕ) (rest : List StackNode), cs.foldl (fun st c =>
      match t.arena.get c with
      | some m => m :: st
      | none => st) rest = cs.reverse.filterMap t.arena.get ++ rest := by
    intro cs
    induction cs with
    | nil => intro rest; rfl
    | cons c cs ih =>
      intro rest
      rw [List.foldl_cons, ih, List.reverse_cons, List.filterMap_append]
      cases hg : t.arena.get c <;> simp [hg]
  exact h _ _

/-- The node at the end of a way down. -/
def downEnd (t : StackTree) (n : StackNode) (p : List ℕ) : StackNode := (walk t n p).getD n

theorem bfsLoop_node {t : StackTree} : ∀ {k : ℕ} {n : StackNode}, Descends t k n →
    ∀ (f : ℕ) (rest out : List StackNode),
    bfsLoop t (f + (downs t k n).length) (n :: rest) out =
      bfsLoop t f rest (out ++ (downs t k n).map (downEnd t n))
  | 0, n, h, f, rest, out => by
    simp [downs, bfsLoop, bfsPush_eq, h.zero, downEnd, walk]
  | k + 1, n, h, f, rest, out => by
    have hl : ∀ (cs : List ℕ), (∀ c ∈ cs, c ∈ n.children) → ∀ (f : ℕ) (out : List StackNode),
        bfsLoop t (f + (cs.flatMap fun c => match t.arena.get c with
          | some m => (downs t k m).map (c :: ·)
          | none => []).length) (cs.filterMap t.arena.get ++ rest) out =
        bfsLoop t f rest (out ++ (cs.flatMap fun c => match t.arena.get c with
          | some m => (downs t k m).map (c :: ·)
          | none => []).map (downEnd t n)) := by
      intro cs
      induction cs with
      | nil => intro _ f out; simp
      | cons c cs ih =>
        intro hcs f out
        have hc := hcs c (by simp)
        cases hg : t.arena.get c with
        | none =>
          simp only [List.flatMap_cons, hg, List.nil_append, List.filterMap_cons]
          exact ih (fun x hx => hcs x (by simp [hx])) f out
        | some m =>
          simp only [List.flatMap_cons, hg, List.filterMap_cons, List.length_append,
            List.length_map, List.map_append, List.map_map, List.cons_append]
          rw [show ∀ a b : ℕ, f + (a + b) = (f + b) + a from fun a b => by omega,
            bfsLoop_node (h.child hc hg), ih (fun x hx => hcs x (by simp [hx]))]
          rw [← List.append_assoc]
          congr 3
          refine List.map_congr_left fun p hp => ?_
          have hs := (mem_downs (h.child hc hg) p).1 hp
          obtain ⟨e, he⟩ := Option.isSome_iff_exists.1 hs
          simp [downEnd, walk, hc, hg, he]
    have h2 := hl n.children.reverse (fun c hc => List.mem_reverse.1 hc) f (out ++ [n])
    simp only [downs, List.length_cons, List.map_cons]
    rw [show ∀ a : ℕ, f + (a + 1) = (f + a) + 1 from fun a => by omega, bfsLoop, bfsPush_eq, h2]
    simp [downEnd, walk]

/-- More rounds change nothing once the loop has ended. -/
theorem bfsLoop_more {t : StackTree} : ∀ {f g : ℕ} {st out r : List StackNode}, f ≤ g →
    bfsLoop t f st out = some r → bfsLoop t g st out = some r
  | f, g, [], out, r, _, h => by cases f <;> cases g <;> exact h
  | 0, _, _ :: _, _, _, _, h => by simp [bfsLoop] at h
  | f + 1, 0, _ :: _, _, _, hl, _ => by omega
  | f + 1, g + 1, n :: rest, out, r, hl, h => by
    rw [bfsLoop] at h ⊢
    exact bfsLoop_more (by omega) h

/-! ## The tree of `stackable` -/

theorem stackable_descends {sm : ℕ} {pms : List Subquery} {t : StackTree}
    (h : stackableWith sm pms = some t) : Descends t t.arena.nodes.length t.root ∧
    t.root.children.Nodup ∧ ∀ c m, t.arena.get c = some m → m.children.Nodup := by
  obtain ⟨K, hK⟩ := stackable_ghost h
  have hlen : K.length = t.arena.nodes.length := by
    have := congrArg List.length hK.nodes
    simpa using this
  refine ⟨⟨fun c hc => ?_, fun c m hm d hd => ?_⟩, ?_, fun c m hm => ?_⟩
  · rw [← hlen]; exact hK.root.child_lt hc
  · obtain ⟨g, hg, rfl⟩ := get_ghost hK.nodes hm
    exact (hK.inv c g hg).2 d hd
  · exact (List.nodup_append.1 hK.nodup).2.1
  · obtain ⟨g, hg, rfl⟩ := get_ghost hK.nodes hm
    exact (List.nodup_flatMap.1 (List.nodup_append.1 hK.nodup).1).1 g (List.mem_of_getElem? hg)

/-- The labels along a way down. -/
def downLabels (t : StackTree) (p : List ℕ) : List (Option Subquery) :=
  p.map fun c => (t.arena.get c).bind StackNode.pm

theorem treePath_of_walk {t : StackTree} : ∀ {p : List ℕ} {n e : StackNode},
    walk t n p = some e → ∃ ns, TreePath t n ns ∧ ns.map StackNode.pm = downLabels t p ∧
      ns.getLast?.getD n = e
  | [], n, e, h => ⟨[], trivial, rfl, by simpa [walk] using h⟩
  | c :: p, n, e, h => by
    rw [walk] at h
    split_ifs at h with hc
    cases hg : t.arena.get c with
    | none => rw [hg] at h; simp at h
    | some m =>
      rw [hg] at h
      obtain ⟨ns, h1, h2, h3⟩ := treePath_of_walk (p := p) (n := m) h
      refine ⟨m :: ns, ⟨⟨c, hc, hg⟩, h1⟩, ?_, ?_⟩
      · simp [downLabels, hg] at h2 ⊢
        exact h2
      · rw [← h3]
        cases ns using List.reverseRecOn with
        | nil => rfl
        | append_singleton l x =>
          rw [show m :: (l ++ [x]) = (m :: l) ++ [x] from rfl, List.getLast?_concat,
            List.getLast?_concat]
          rfl

theorem count_downs {t : StackTree} : ∀ {k : ℕ} {n : StackNode}, Descends t k n →
    ∀ qs : List Subquery,
    ((downs t k n).map (downLabels t)).count (qs.map some) = countPaths t n qs
  | 0, n, h, qs => by
    cases qs with
    | nil => simp [downs, downLabels, countPaths]
    | cons q qs => simp [downs, downLabels, countPaths, h.zero]
  | k + 1, n, h, qs => by
    cases qs with
    | nil =>
      simp only [downs, countPaths, List.map_cons, List.map_nil]
      rw [show downLabels t [] = [] from rfl, List.count_cons_self, List.count_eq_zero.2]
      intro hm
      obtain ⟨p, hp, e⟩ := List.mem_map.1 hm
      obtain ⟨c, -, hc⟩ := List.mem_flatMap.1 hp
      cases hg : t.arena.get c with
      | none => rw [hg] at hc; simp at hc
      | some m =>
        rw [hg] at hc
        obtain ⟨p', -, rfl⟩ := List.mem_map.1 hc
        simp [downLabels] at e
    | cons q qs =>
      simp only [downs, countPaths, List.map_cons]
      rw [show downLabels t [] = [] from rfl, List.count_cons_of_ne (by simp), List.map_flatMap,
        List.count_flatMap, List.map_reverse, List.sum_reverse]
      refine congrArg List.sum (List.map_congr_left fun c hc => ?_)
      simp only [Function.comp]
      cases hg : t.arena.get c with
      | none => simp
      | some m =>
        have e : ((downs t k m).map (c :: ·)).map (downLabels t) =
            ((downs t k m).map (downLabels t)).map (m.pm :: ·) := by
          simp [List.map_map, Function.comp_def, downLabels, hg]
        rw [e]
        change _ = if m.pm = some q then countPaths t m qs else 0
        split_ifs with hq
        · rw [hq, ← count_downs (h.child hc hg) qs]
          exact List.count_map_of_injective _ _ (fun a b e => by injection e) _
        · refine List.count_eq_zero.2 fun hm => ?_
          obtain ⟨x, -, hx⟩ := List.mem_map.1 hm
          injection hx with h1 h2
          exact hq h1

theorem bfs_downs {sm : ℕ} {pms : List Subquery} {t : StackTree}
    (h : stackableWith sm pms = some t) :
    let P := downs t t.arena.nodes.length t.root
    ∀ rounds, P.length ≤ rounds → bfs rounds t = some (P.map (downEnd t t.root)) := by
  intro P rounds hr
  have h1 := bfsLoop_node (stackable_descends h).1 0 [] []
  rw [bfsLoop, Nat.zero_add, List.nil_append] at h1
  exact bfsLoop_more hr h1

/-! ## The claims -/

/-- The traversal of the tree of any phrase matches ends and lists, for every way down from the
root over nodes that are still there, the node at its end, once; the root comes first and no node
comes before its parent. -/
theorem C68_every_node_once {sm : ℕ} {pms : List Subquery} {t : StackTree}
    (h : stackableWith sm pms = some t) :
    ∃ (out : List StackNode) (P : List (List ℕ)),
      (∃ enough, ∀ rounds, enough ≤ rounds → bfs rounds t = some out) ∧
      P.map (walk t t.root) = out.map some ∧ P.Nodup ∧
      (∀ p, p ∈ P ↔ (walk t t.root p).isSome) ∧
      P.head? = some [] ∧ P.Pairwise fun p q => ¬ q <+: p := by
  obtain ⟨hd, hr, hn⟩ := stackable_descends h
  refine ⟨_, downs t t.arena.nodes.length t.root, ⟨_, bfs_downs h⟩, ?_, downs_nodup hn _ hr,
    mem_downs hd, ?_, downs_prefix _ hr hn⟩
  · rw [List.map_map]
    refine List.map_congr_left fun p hp => ?_
    obtain ⟨e, he⟩ := Option.isSome_iff_exists.1 ((mem_downs hd p).1 hp)
    simp [downEnd, he]
  · cases t.arena.nodes.length <;> rfl

/-- While the limit on the number of leaves is not reached and no phrase match is given twice, the
traversal lists every stack exactly once and nothing else: the node of a stack carries its last
phrase match and the union of its masks. -/
theorem C68_every_stack_once {sm : ℕ} {pms : List Subquery} {t : StackTree}
    (h : stackableWith sm pms = some t) (hlim : t.arena.totalLeaves < t.arena.softMax)
    (hnd : pms.Nodup) :
    ∃ (out : List StackNode) (Q : List (List Subquery)),
      (∃ enough, ∀ rounds, enough ≤ rounds → bfs rounds t = some out) ∧
      Q.Nodup ∧ (∀ qs, qs ∈ Q ↔ IsStack pms qs) ∧
      List.Forall₂ (fun qs n => n.pm = qs.getLast? ∧ n.mask = stackMask qs) Q out := by
  obtain ⟨hd, hr, hn⟩ := stackable_descends h
  set P := downs t t.arena.nodes.length t.root with hP
  have hlab : ∀ p ∈ P, ∃ qs e, walk t t.root p = some e ∧ downLabels t p = qs.map some ∧
      e.pm = qs.getLast? ∧ e.mask = stackMask qs := by
    intro p hp
    obtain ⟨e, he⟩ := Option.isSome_iff_exists.1 ((mem_downs hd p).1 hp)
    obtain ⟨ns, h1, h2, h3⟩ := treePath_of_walk he
    obtain ⟨qs, h4, -, -, -, h5⟩ := C30_paths_are_stacks h h1
    refine ⟨qs, e, he, by rw [← h2, h4], ?_, by rw [← h3, h5]⟩
    have hl := congrArg List.getLast? h4
    rw [List.getLast?_map, List.getLast?_map] at hl
    rw [← h3]
    cases hns : ns.getLast? with
    | none =>
      rw [hns] at hl
      have hroot : t.root.pm = none := by
        obtain ⟨K, hK⟩ := stackable_ghost h
        exact hK.same.1
      cases hq : qs.getLast? with
      | none => simpa using hroot
      | some q => rw [hq] at hl; simp at hl
    | some m =>
      rw [hns] at hl
      cases hq : qs.getLast? with
      | none => rw [hq] at hl; simp at hl
      | some q => rw [hq] at hl; simpa using hl
  have hone : ∀ qs : List Subquery, (P.map (downLabels t)).count (qs.map some) ≤ 1 := by
    intro qs
    rw [hP, count_downs hd]
    by_cases hs : IsStack pms qs
    · rw [C32_exactly_once h hlim hnd hs]
    · by_contra hc
      exact hs (C32_nothing_else h (by omega))
  have hred : ∀ qs : List Subquery, (qs.map some).filterMap id = qs := by
    intro qs
    induction qs with
    | nil => rfl
    | cons q qs ih => simp
  refine ⟨_, P.map fun p => (downLabels t p).filterMap id, ⟨_, bfs_downs h⟩, ?_, ?_, ?_⟩
  · refine List.nodup_iff_count_le_one.2 fun qs => le_trans ?_ (hone qs)
    rw [List.count_eq_countP, List.count_eq_countP, List.countP_map, List.countP_map]
    refine List.countP_mono_left fun p hp he => ?_
    obtain ⟨qs', e, -, h2, -⟩ := hlab p hp
    simp only [Function.comp, beq_iff_eq] at he ⊢
    rw [h2, hred] at he
    rw [h2, he]
  · intro qs
    constructor
    · intro hq
      obtain ⟨p, hp, rfl⟩ := List.mem_map.1 hq
      obtain ⟨qs', e, -, h2, -⟩ := hlab p hp
      rw [h2, hred]
      refine C32_nothing_else h (fun h0 => ?_)
      rw [← count_downs hd qs', List.count_eq_zero] at h0
      exact h0 (List.mem_map.2 ⟨p, hp, h2⟩)
    · intro hs
      have h1 : (P.map (downLabels t)).count (qs.map some) ≠ 0 := by
        rw [hP, count_downs hd, C32_exactly_once h hlim hnd hs]; omega
      obtain ⟨p, hp, he⟩ := List.mem_map.1 (List.count_pos_iff.1 (Nat.pos_of_ne_zero h1))
      exact List.mem_map.2 ⟨p, hp, by rw [he, hred]⟩
  · rw [List.forall₂_map_left_iff, List.forall₂_map_right_iff]
    refine List.forall₂_same.2 fun p hp => ?_
    obtain ⟨qs, e, h1, h2, h3, h4⟩ := hlab p hp
    rw [h2, hred]
    simpa [downEnd, h1] using ⟨h3, h4⟩

/-- Two phrase matches of one index and one of another. -/
def levelPms : List Subquery :=
  [⟨emptyStore 0 6, 1, [], lit 0.25, 1, []⟩, ⟨emptyStore 0 6, 2, [], lit 0.25, 1, []⟩,
   ⟨emptyStore 1 8, 3, [], lit 0.5, 2, []⟩]

/-- In spite of its name the traversal does not go level by level: below these phrase matches a
stack of two comes before a stack of one. -/
theorem C68_not_by_level : ∃ (t : StackTree) (out : List StackNode) (P : List (List ℕ)),
    stackable levelPms = some t ∧ bfs 6 t = some out ∧ P.map (walk t t.root) = out.map some ∧
    ¬ (P.map List.length).Pairwise (· ≤ ·) := by
  refine ⟨(stackable levelPms).get (by decide +kernel),
    (bfs 6 ((stackable levelPms).get (by decide +kernel))).getD [],
    [[], [4], [3], [3, 2], [1], [1, 0]], by simp, ?_, ?_, by decide⟩
  · decide +kernel
  · decide +kernel

/-- The hypotheses of the two theorems are met. -/
example : ∃ t, stackable levelPms = some t ∧ t.arena.totalLeaves < t.arena.softMax ∧
    levelPms.Nodup ∧ IsStack levelPms [levelPms[1], levelPms[2]] :=
  ⟨(stackable levelPms).get (by decide +kernel), by simp, by decide +kernel, by decide +kernel,
    ⟨by decide +kernel, by decide +kernel, by decide +kernel, by decide +kernel,
      by decide +kernel⟩⟩

end Carmen

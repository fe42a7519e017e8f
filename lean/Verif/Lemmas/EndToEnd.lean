import Verif.Lemmas.StackCount
import Verif.Lemmas.StackOnce
import Verif.Props.TreeComplete

/-!
# From levels of the tree to hits
-/

namespace Carmen
open Spec

/-- A level without its node. -/
def Spec.Level.hit (l : Level) : Hit := ⟨l.q, l.kg, l.grid⟩

theorem map_eq_pair {α β : Type} {f : α → β} {l : List α} {a b : β} (h : l.map f = [a, b]) :
    ∃ x y, l = [x, y] ∧ f x = a ∧ f y = b := by
  obtain ⟨x, t, rfl, hx, ht⟩ := List.map_eq_cons_iff.1 h
  obtain ⟨y, u, rfl, hy, hu⟩ := List.map_eq_cons_iff.1 ht
  rw [List.map_eq_nil_iff] at hu
  subst hu
  exact ⟨x, y, rfl, hx, hy⟩

theorem map_eq_one {α β : Type} {f : α → β} {l : List α} {a : β} (h : l.map f = [a]) :
    ∃ x, l = [x] ∧ f x = a := by
  obtain ⟨x, t, rfl, hx, ht⟩ := List.map_eq_cons_iff.1 h
  rw [List.map_eq_nil_iff] at ht
  subst ht
  exact ⟨x, rfl, hx⟩

/-- Two children for one phrase match would be counted twice. -/
theorem child_unique {t : StackTree} {n : StackNode} {q : Subquery}
    (h : countPaths t n [q] ≤ 1) {c c' : ℕ} (hc : c ∈ n.children) (hc' : c' ∈ n.children)
    {m m' : StackNode} (hm : t.arena.get c = some m) (hm' : t.arena.get c' = some m')
    (hq : m.pm = some q) (hq' : m'.pm = some q) : c = c' := by
  by_cases hcc : c = c'
  · exact hcc
  · exfalso
    simp only [countPaths] at h
    generalize hF : (fun c => match t.arena.get c with
      | some m => if m.pm = some q then 1 else 0
      | none => 0) = F at h
    have h1 : F c = 1 := by rw [← hF]; simp [hm, hq]
    have h2 : F c' = 1 := by rw [← hF]; simp [hm', hq']
    generalize n.children = l at h hc hc'
    have key : ∀ l : List ℕ, c ∈ l → c' ∈ l → 2 ≤ (l.map F).sum := by
      intro l
      induction l with
      | nil => intro h; cases h
      | cons a t ih =>
        intro hc hc'
        have hge : ∀ x ∈ t, F x ≤ (t.map F).sum :=
          fun x hx => List.le_sum_of_mem (List.mem_map_of_mem hx)
        rw [List.map_cons, List.sum_cons]
        rcases List.mem_cons.1 hc with rfl | hct
        · rcases List.mem_cons.1 hc' with rfl | hc'
          · exact absurd rfl hcc
          · have := hge _ hc'; omega
        · rcases List.mem_cons.1 hc' with rfl | hc'
          · have := hge c hct; omega
          · have := ih hct hc'; omega
    have := key l hc hc'
    omega

theorem two_le_sum {F : ℕ → ℕ} {c c' : ℕ} (hcc : c ≠ c') (h1 : 1 ≤ F c) (h2 : 1 ≤ F c') :
    ∀ l : List ℕ, c ∈ l → c' ∈ l → 2 ≤ (l.map F).sum := by
  intro l
  induction l with
  | nil => intro h; cases h
  | cons a t ih =>
    intro hc hc'
    have hge : ∀ x ∈ t, F x ≤ (t.map F).sum :=
      fun x hx => List.le_sum_of_mem (List.mem_map_of_mem hx)
    rw [List.map_cons, List.sum_cons]
    rcases List.mem_cons.1 hc with rfl | hct
    · rcases List.mem_cons.1 hc' with rfl | hc'
      · exact absurd rfl hcc
      · have := hge _ hc'; omega
    · rcases List.mem_cons.1 hc' with rfl | hc'
      · have := hge c hct; omega
      · have := ih hct hc'; omega

theorem count_pos_of_path {t : StackTree} : ∀ {p : List StackNode} {n : StackNode}
    {qs : List Subquery}, TreePath t n p → p.map StackNode.pm = qs.map some →
    1 ≤ countPaths t n qs
  | [], n, [], _, _ => le_rfl
  | [], n, q :: qs, _, h => by cases h
  | m :: p, n, [], _, h => by cases h
  | m :: p, n, q :: qs, ⟨⟨c, hc, hm⟩, hp⟩, h => by
    rw [List.map_cons, List.map_cons, List.cons.injEq] at h
    have h1 := count_pos_of_path hp h.2
    unfold countPaths
    refine le_trans h1 (le_trans (le_of_eq ?_)
      (List.le_sum_of_mem (List.mem_map_of_mem (a := c) hc)))
    rw [hm]
    simp only
    rw [if_pos h.1]

/-- Two paths for one stack would be counted twice. -/
theorem path_unique {t : StackTree} : ∀ {p p' : List StackNode} {n : StackNode}
    {qs : List Subquery}, countPaths t n qs ≤ 1 → TreePath t n p → TreePath t n p' →
    p.map StackNode.pm = qs.map some → p'.map StackNode.pm = qs.map some → p = p'
  | p, p', n, [], _, _, _, h, h' => by
    rw [List.map_nil, List.map_eq_nil_iff] at h h'
    rw [h, h']
  | [], p', n, q :: qs, _, _, _, h, _ => by cases h
  | m :: p, [], n, q :: qs, _, _, _, _, h' => by cases h'
  | m :: p, m' :: p', n, q :: qs, hcount, ⟨⟨c, hc, hm⟩, hp⟩, ⟨⟨c', hc', hm'⟩, hp'⟩, h, h' => by
    rw [List.map_cons, List.map_cons, List.cons.injEq] at h h'
    have h1 := count_pos_of_path hp h.2
    have h2 := count_pos_of_path hp' h'.2
    unfold countPaths at hcount
    generalize hF : (fun c => match t.arena.get c with
      | some m => if m.pm = some q then countPaths t m qs else 0
      | none => 0) = F at hcount
    have e1 : F c = countPaths t m qs := by
      rw [← hF]
      simp only [hm]
      rw [if_pos h.1]
    have e2 : F c' = countPaths t m' qs := by
      rw [← hF]
      simp only [hm']
      rw [if_pos h'.1]
    by_cases hcc : c = c'
    · subst hcc
      rw [hm] at hm'
      cases hm'
      have h3 : F c ≤ (n.children.map F).sum := List.le_sum_of_mem (List.mem_map_of_mem hc)
      rw [path_unique (by omega) hp hp' h.2 h'.2]
    · have := two_le_sum (F := F) hcc (by omega) (by omega) _ hc hc'
      omega

/-- Nothing goes below a stack whose last node has no children. -/
theorem not_extendable_of_leaf {sm : ℕ} {pms : List Subquery} {t : StackTree}
    (h : stackableWith sm pms = some t) (hnd : pms.Nodup) {p : List StackNode} {m : StackNode}
    {qs : List Subquery} (hwhole : ∀ q, ¬ Missing pms t (qs ++ [q]))
    (hp : TreePath t t.root (p ++ [m])) (hqs : (p ++ [m]).map StackNode.pm = qs.map some)
    (hch : m.children = []) : ¬ Extendable pms qs := by
  rintro ⟨q, hq⟩
  have h1 : countPaths t t.root (qs ++ [q]) = 1 := count_one h hnd hq (hwhole q)
  have h2 := count_le_one h hnd qs
  obtain ⟨p', hp', hpm⟩ := exists_path_of_count (t := t) (n := t.root) (qs := qs ++ [q]) (by omega)
  rw [List.map_append, List.map_singleton] at hpm
  obtain ⟨a, b, rfl, ha, hb⟩ := List.map_eq_append_iff.1 hpm
  obtain ⟨x, rfl, -⟩ := map_eq_one hb
  rw [treePath_append] at hp'
  have := path_unique (by omega) hp hp'.1 hqs ha
  rw [← this] at hp'
  obtain ⟨c, hc, _⟩ := hp'.2.1
  simp only [List.getLast?_concat, Option.getD_some] at hc
  rw [hch] at hc
  cases hc

/-- A node below the root has children exactly if something can go below it. -/
theorem children_iff {sm : ℕ} {pms : List Subquery} {t : StackTree}
    (h : stackableWith sm pms = some t) (hnd : pms.Nodup) {m : StackNode} {q : Subquery}
    (hwhole : Whole pms t [q]) (hp : TreePath t t.root [m]) (hq : m.pm = some q) :
    m.children ≠ [] ↔ Extendable pms [q] := by
  constructor
  · intro hne
    obtain ⟨c, rest, hc⟩ := List.exists_cons_of_ne_nil hne
    exact child_extends h hp (qs := [q]) (by simp [hq]) (c := c) (by
      show c ∈ m.children
      rw [hc]
      exact List.mem_cons_self)
  · intro hx hnil
    exact not_extendable_of_leaf h hnd (p := []) (m := m) hwhole.2 hp (by simp [hq]) hnil hx

section
variable {pms : List Subquery} {t : StackTree} {ls : List Level}
  (hbelow : ∀ l, ls = [l] → (l.node.children ≠ [] ↔ Extendable pms [l.q]))
include hbelow

theorem alone_iff : Alone ls ↔ Lone pms (ls.map Level.hit) := by
  constructor
  · rintro ⟨l, rfl, hc⟩
    refine ⟨l.hit, rfl, ?_⟩
    rw [show l.hit.q = l.q from rfl, ← hbelow l rfl]
    exact not_not_intro hc
  · rintro ⟨x, hx, hn⟩
    obtain ⟨l, rfl, rfl⟩ := map_eq_one hx
    · rw [show l.hit.q = l.q from rfl, ← hbelow l rfl] at hn
      exact ⟨l, rfl, not_not.1 hn⟩

theorem penalized_iff : Penalized ls ↔ LosesPoints pms (ls.map Level.hit) := by
  constructor
  · rintro (⟨l, rfl, hc⟩ | ⟨above, u, l, rfl, hm⟩)
    · exact Or.inl ⟨l.hit, rfl, (hbelow l rfl).1 hc⟩
    · exact Or.inr ⟨above.map Level.hit, u.hit, l.hit, by simp, hm⟩
  · rintro (⟨x, hx, hn⟩ | ⟨above, u, l, hx, hm⟩)
    · obtain ⟨l, rfl, rfl⟩ := map_eq_one hx
      · exact Or.inl ⟨l, rfl, (hbelow l rfl).2 hn⟩
    · rw [List.map_eq_append_iff] at hx
      obtain ⟨a, b, rfl, rfl, hb⟩ := hx
      obtain ⟨u', l', rfl, rfl, rfl⟩ := map_eq_pair hb
      exact Or.inr ⟨a, u', l', rfl, hm⟩

/-- Contexts over levels of the tree are contexts over hits. -/
theorem stackedFrom_iff' {env : Env} {opts : MatchOpts} {c : Context}
    (hstack : IsStack pms ((ls.map Level.hit).map Hit.q))
    (hp : TreePath t t.root (ls.map Level.node)) (hpm : ∀ l ∈ ls, l.node.pm = some l.q) :
    StackedFrom env t opts ls c ↔ ContextOf env opts pms (ls.map Level.hit) c := by
  have ha := alone_iff hbelow
  have hpen := penalized_iff hbelow
  constructor
  · intro hs
    refine ⟨by simpa using hs.ne, hstack, ?_, ?_, ?_, ?_, ?_, ?_, fun hn x hx => by
      obtain ⟨l, hl, rfl⟩ := List.mem_map.1 hx
      rw [← ha] at hn
      exact (hs.first hn l hl).2⟩
    · intro x hx limit h1 h2
      obtain ⟨l, hl, rfl⟩ := List.mem_map.1 hx
      rw [← ha] at h1 h2
      exact (hs.answers l hl limit h1 h2).2
    · rw [← List.map_reverse, List.forall₂_map_left_iff]
      exact hs.entries
    · rw [List.isChain_map]
      exact hs.tiles
    · rw [hs.mask, List.map_map]
      rfl
    · intro hn
      rw [hs.plain (fun hh => hn (hpen.1 hh)), List.map_map]
      rfl
    · intro hn
      rw [hs.penalty (hpen.2 hn), List.map_map]
      rfl
  · intro hs
    refine ⟨by simpa using hs.ne, hp, ?_, ?_, ?_, ?_, ?_, ?_, fun hn l hl => by
      rw [ha] at hn
      exact ⟨hpm l hl, hs.first hn l.hit (List.mem_map_of_mem hl)⟩⟩
    · intro l hl limit h1 h2
      rw [ha] at h1 h2
      exact ⟨hpm l hl, hs.answers l.hit (List.mem_map_of_mem hl) limit h1 h2⟩
    · have := hs.entries
      rw [← List.map_reverse, List.forall₂_map_left_iff] at this
      exact this
    · have := hs.tiles
      rw [List.isChain_map] at this
      exact this
    · rw [hs.mask, List.map_map]
      rfl
    · intro hn
      rw [hs.plain (fun hh => hn (hpen.2 hh)), List.map_map]
      rfl
    · intro hn
      rw [hs.penalty (hpen.1 hn), List.map_map]
      rfl

end

/-- The levels of a path are a stack. -/
theorem levels_isStack {sm : ℕ} {pms : List Subquery} {t : StackTree}
    (h : stackableWith sm pms = some t) {ls : List Level}
    (hp : TreePath t t.root (ls.map Level.node)) (hpm : ∀ l ∈ ls, l.node.pm = some l.q) :
    IsStack pms ((ls.map Level.hit).map Hit.q) := by
  refine path_isStack h hp ?_
  rw [List.map_map, List.map_map, List.map_map]
  exact List.map_congr_left fun l hl => hpm l hl

/-- Contexts over levels of the tree are contexts over hits, where nothing is missing. -/
theorem stackedFrom_iff {sm : ℕ} {pms : List Subquery} {t : StackTree}
    (h : stackableWith sm pms = some t) (hnd : pms.Nodup) {ls : List Level}
    (hwhole : Whole pms t (ls.map (·.q)))
    (hp : TreePath t t.root (ls.map Level.node)) (hpm : ∀ l ∈ ls, l.node.pm = some l.q)
    {env : Env} {opts : MatchOpts} {c : Context} :
    StackedFrom env t opts ls c ↔ ContextOf env opts pms (ls.map Level.hit) c := by
  refine stackedFrom_iff' ?_ (levels_isStack h hp hpm) hp hpm
  rintro l rfl
  exact children_iff h hnd hwhole hp (hpm l (by simp))

/-- A stack of hits belongs to a path of the tree. -/
theorem levels_of_hits {sm : ℕ} {pms : List Subquery} {t : StackTree}
    (h : stackableWith sm pms = some t) (hnd : pms.Nodup) {hs : List Hit}
    (hstack : IsStack pms (hs.map Hit.q)) (hm : ¬ Missing pms t (hs.map Hit.q)) :
    ∃ ls : List Level, ls.map Level.hit = hs ∧ TreePath t t.root (ls.map Level.node) ∧
      ∀ l ∈ ls, l.node.pm = some l.q := by
  have h1 := count_one h hnd hstack hm
  obtain ⟨p, hp, hpm⟩ := exists_path_of_count (t := t) (n := t.root) (qs := hs.map Hit.q) (by omega)
  have key : ∀ (hs : List Hit) (p : List StackNode), p.map StackNode.pm = (hs.map Hit.q).map some →
      ∃ ls : List Level, ls.map Level.hit = hs ∧ ls.map Level.node = p ∧
        ∀ l ∈ ls, l.node.pm = some l.q := by
    intro hs
    induction hs with
    | nil =>
      intro p hp
      cases p with
      | nil => exact ⟨[], rfl, rfl, by simp⟩
      | cons _ _ => cases hp
    | cons x t ih =>
      intro p hp
      cases p with
      | nil => cases hp
      | cons n p =>
        simp only [List.map_cons, List.cons.injEq] at hp
        obtain ⟨ls, e1, e2, e3⟩ := ih p (by simpa using hp.2)
        refine ⟨⟨n, x.q, x.kg, x.grid⟩ :: ls, ?_, ?_, ?_⟩
        · rw [List.map_cons, e1]
          rfl
        · rw [List.map_cons, e2]
        · intro l hl
          rcases List.mem_cons.1 hl with rfl | hl
          · exact hp.1
          · exact e3 l hl
  obtain ⟨ls, e1, e2, e3⟩ := key hs p hpm
  exact ⟨ls, e1, by rw [e2]; exact hp, e3⟩

theorem child_of_one {l : List StackNode} (h : (l.flatMap StackNode.children).Nodup) {i j : ℕ}
    {m m' : StackNode} (hi : l[i]? = some m) (hj : l[j]? = some m') {c : ℕ} (hc : c ∈ m.children)
    (hc' : c ∈ m'.children) : i = j := by
  induction l generalizing i j with
  | nil => cases hi
  | cons a l ih =>
    rw [List.flatMap_cons, List.nodup_append] at h
    have hsub : ∀ {k : ℕ} {n : StackNode}, l[k]? = some n → c ∈ n.children →
        c ∈ l.flatMap StackNode.children := fun hk hn =>
      List.mem_flatMap.2 ⟨_, List.mem_of_getElem? hk, hn⟩
    cases i with
    | zero =>
      cases hi
      cases j with
      | zero => rfl
      | succ j => exact absurd rfl (h.2.2 c hc c (hsub hj hc'))
    | succ i =>
      cases j with
      | zero =>
        cases hj
        exact absurd rfl (h.2.2 c hc' c (hsub hi hc))
      | succ j => rw [ih h.2.1 hi hj]

theorem node_at {t : StackTree} {i : ℕ} {m : StackNode} (h : t.arena.get i = some m) :
    (t.arena.nodes.map Prod.fst)[i]? = some m := by
  unfold Arena.get at h
  rw [List.getElem?_map]
  split at h
  · cases h
    simp [*]
  · cases h

/-- There is only one way from the root to a node with children. -/
theorem way_unique {t : StackTree}
    (ht : ((t.arena.nodes.map Prod.fst).flatMap StackNode.children ++ t.root.children).Nodup)
    (p : List StackNode) : ∀ {p' : List StackNode} {c : ℕ}, TreePath t t.root p →
    TreePath t t.root p' → c ∈ (p.getLast?.getD t.root).children →
    c ∈ (p'.getLast?.getD t.root).children → p = p' := by
  rw [List.nodup_append] at ht
  have hdis : ∀ {i c : ℕ} {m : StackNode}, t.arena.get i = some m → c ∈ m.children →
      c ∈ t.root.children → False := fun hi hc hr =>
    ht.2.2 _ (List.mem_flatMap.2 ⟨_, List.mem_of_getElem? (node_at hi), hc⟩) _ hr rfl
  have hsplit : ∀ {p : List StackNode} {m : StackNode}, TreePath t t.root (p ++ [m]) →
      TreePath t t.root p ∧ ∃ c ∈ (p.getLast?.getD t.root).children, t.arena.get c = some m := by
    intro p m h
    rw [treePath_append] at h
    exact ⟨h.1, h.2.1⟩
  induction p using List.reverseRecOn with
  | nil =>
    intro p' c _ hp' hc hc'
    rcases List.eq_nil_or_concat p' with rfl | ⟨q, m, rfl⟩
    · rfl
    · rw [List.concat_eq_append] at hp' hc'
      rw [List.getLast?_concat] at hc'
      obtain ⟨_, i, _, hi⟩ := hsplit hp'
      exact (hdis hi hc' hc).elim
  | append_singleton p m ih =>
    intro p' c hp hp' hc hc'
    rw [List.getLast?_concat] at hc
    obtain ⟨h1, i, hi, hgi⟩ := hsplit hp
    rcases List.eq_nil_or_concat p' with rfl | ⟨q, m', rfl⟩
    · exact (hdis hgi hc hc').elim
    · rw [List.concat_eq_append] at hp' hc' ⊢
      rw [List.getLast?_concat] at hc'
      obtain ⟨h2, j, hj, hgj⟩ := hsplit hp'
      obtain rfl := child_of_one ht.1 (node_at hgi) (node_at hgj) hc hc'
      rw [hgi] at hgj
      cases hgj
      rw [ih h1 h2 hi hj]

/-- Going on below one of a few nodes is to continue one of as many stacks. -/
theorem continues_of_goesBelow {t : StackTree}
    (ht : ((t.arena.nodes.map Prod.fst).flatMap StackNode.children ++ t.root.children).Nodup)
    (few : List StackNode) : ∃ tops : List (List Subquery), tops.length = few.length ∧
    ∀ ls : List Level, TreePath t t.root (ls.map Level.node) → (∀ l ∈ ls, l.node.pm = some l.q) →
      GoesBelow few ls → Continues tops (ls.map (·.q)) := by
  classical
  have hex : ∀ n : StackNode, ∃ top : List Subquery, (∃ p qs, TreePath t t.root (p ++ [n]) ∧
      (p ++ [n]).map StackNode.pm = (qs : List Subquery).map some) → ∃ p, TreePath t t.root (p ++ [n]) ∧
      (p ++ [n]).map StackNode.pm = top.map some := by
    intro n
    by_cases h : ∃ p qs, TreePath t t.root (p ++ [n]) ∧
        (p ++ [n]).map StackNode.pm = (qs : List Subquery).map some
    · obtain ⟨p, qs, h⟩ := h
      exact ⟨qs, fun _ => ⟨p, h⟩⟩
    · exact ⟨[], fun h' => absurd h' h⟩
  choose f hf using hex
  refine ⟨few.map f, List.length_map _, ?_⟩
  rintro ls hp hpm ⟨above, upper, lower, below, rfl, hn⟩
  have hp' : TreePath t t.root ((above.map Level.node ++ [upper.node]) ++
      lower.node :: below.map Level.node) := by simpa using hp
  obtain ⟨hp1, ⟨c, hc, _⟩, _⟩ := treePath_append.1 hp'
  have hq : (above.map Level.node ++ [upper.node]).map StackNode.pm =
      ((above ++ [upper]).map (·.q)).map some := by
    rw [← List.map_singleton (f := Level.node), ← List.map_append, List.map_map, List.map_map]
    exact List.map_congr_left fun l hl => hpm l (by
      rcases List.mem_append.1 hl with h | h
      · simp [h]
      · simp [List.mem_singleton.1 h])
  obtain ⟨p, hf1, hf2⟩ := hf upper.node ⟨_, _, hp1, hq⟩
  have he := way_unique ht _ hf1 hp1 (c := c) (by
    rw [List.getLast?_concat] at hc ⊢
    exact hc) hc
  rw [he, hq] at hf2
  have hf3 := List.map_injective_iff.2 (Option.some_injective _) hf2
  refine ⟨_, List.mem_map_of_mem hn, ?_, lower.q, below.map (·.q), ?_⟩
  · rw [← hf3]
    simp
  · rw [← hf3]
    simp

end Carmen

import Mathlib.Data.List.Nodup
import Mathlib.Data.List.Range
import Mathlib.Data.Nat.Bitwise
import Verif.Model.Stack
import Verif.F64.Lemmas

/-!
# Invariants of the stack tree

A ghost list `K` records for every node ever inserted its path relevance and the bins its
children come from.
-/

namespace Carmen

/-! ## Adding to the arena -/

theorem Arena.removeAll_fst (ids : List ℕ) (l : List (StackNode × Bool)) :
    (ids.foldl Arena.removeAt l).map Prod.fst = l.map Prod.fst := by
  induction ids generalizing l with
  | nil => rfl
  | cons j t ih =>
    rw [List.foldl_cons, ih]
    unfold Arena.removeAt
    refine List.ext_getElem? fun i => ?_
    rw [List.getElem?_map, List.getElem?_map, List.getElem?_modify]
    cases l[i]? with
    | none => rfl
    | some p => simp only [Option.map_some]; split <;> rfl

theorem Arena.cullMin_fst (a : Arena) : a.cullMin.nodes.map Prod.fst = a.nodes.map Prod.fst := by
  unfold Arena.cullMin
  split
  · exact Arena.removeAll_fst _ _
  · rfl

/-- What an addition does to the list of nodes and to the limit. -/
theorem Arena.add_cases {a a' : Arena} {n : StackNode} {r : Option ℕ}
    (h : a.add n = some (a', r)) :
    (a' = a ∧ r = none ∧ a.softMax ≤ a.totalLeaves) ∨
    (r = some a.nodes.length ∧ a'.nodes.map Prod.fst = a.nodes.map Prod.fst ++ [n] ∧
      a'.softMax = a.softMax ∧
      ((a.totalLeaves < a.softMax ∧ a'.nodes = a.nodes ++ [(n, true)] ∧
        a.totalLeaves ≤ a'.totalLeaves) ∨
       (a.softMax ≤ a.totalLeaves ∧ a.softMax ≤ a'.totalLeaves))) := by
  have hc : ∀ b : Arena, b.cullMin.softMax = b.softMax := by
    intro b; unfold Arena.cullMin; split <;> rfl
  unfold Arena.add at h
  by_cases h1 : a.softMax ≤ a.totalLeaves ∧ n.maxRelev < a.minRelev
  · rw [if_pos h1] at h
    cases h
    exact Or.inl ⟨rfl, rfl, h1.1⟩
  · rw [if_neg h1] at h
    right
    simp only at h
    generalize hl : (if n.children.length = 0 then 1 else 0) = leaf at h
    by_cases h2 : a.totalLeaves < a.softMax
    · rw [if_pos h2] at h
      cases h
      exact ⟨rfl, by simp, rfl, Or.inl ⟨h2, rfl, Nat.le_add_right _ _⟩⟩
    · rw [if_neg h2] at h
      have h2' : a.softMax ≤ a.totalLeaves := by omega
      by_cases h3 : a.minRelev < n.maxRelev
      · rw [if_pos h3] at h
        split at h
        · cases h
        · rename_i count ids hf
          by_cases h4 : a.softMax ≤ a.totalLeaves + leaf - count
          · rw [if_pos h4] at h
            cases h
            refine ⟨rfl, by rw [Arena.cullMin_fst]; simp, hc _, Or.inr ⟨h2', ?_⟩⟩
            unfold Arena.cullMin
            simp only
            rw [hf]
            exact h4
          · rw [if_neg h4] at h
            cases h
            exact ⟨rfl, by simp, rfl, Or.inr ⟨h2', le_trans h2' (Nat.le_add_right _ _)⟩⟩
      · rw [if_neg h3] at h
        cases h
        exact ⟨rfl, by simp, rfl, Or.inr ⟨h2', le_trans h2' (Nat.le_add_right _ _)⟩⟩

/-! ## Ghost state -/

/-- A node with its path relevance and the bins its children come from. -/
structure Ghost where
  node : StackNode
  relev : F64
  bins : List PmBin

/-- The phrase match may go below the node (stackable.rs:226-228). -/
def FitsBelow (n : StackNode) (pm : Subquery) : Prop :=
  n.mask &&& pm.mask = 0 ∧ n.idx ∉ pm.nonOverlapping

instance (n : StackNode) (pm : Subquery) : Decidable (FitsBelow n pm) := by
  unfold FitsBelow; infer_instance

/-- `c` is a proper child of `g`. -/
def ChildOk (K : List Ghost) (g : Ghost) (c : ℕ) : Prop :=
  ∃ g', K[c]? = some g' ∧ ∃ pre b rest pm, g.bins = pre ++ b :: rest ∧ pm ∈ b.pms ∧
    FitsBelow g.node pm ∧ g'.bins = rest ∧ g'.relev = g.relev + pm.weight ∧
    g'.node.pm = some pm ∧ g'.node.mask = pm.mask ||| g.node.mask ∧ g'.node.idx = pm.idx ∧
    (g'.node.zoom = pm.store.zoom ∧ g'.node.bmask = g.node.bmask ++ pm.nonOverlapping) ∧
    F64.flt g.node.maxRelev g'.node.maxRelev = false

/-- The node is consistent with its ghost. -/
structure NodeOk (K : List Ghost) (g : Ghost) : Prop where
  child : ∀ c ∈ g.node.children, ChildOk K g c
  attained : g.node.maxRelev = g.relev ∨
    ∃ c ∈ g.node.children, ∃ g', K[c]? = some g' ∧ g.node.maxRelev = g'.node.maxRelev
  bound : F64.flt g.node.maxRelev g.relev = false

/-- All nodes ever inserted are consistent. -/
def GhostInv (K : List Ghost) : Prop :=
  ∀ i g, K[i]? = some g → NodeOk K g ∧ ∀ c ∈ g.node.children, c < i

theorem ChildOk.mono {K L : List Ghost} {g : Ghost} {c : ℕ} (h : ChildOk K g c) :
    ChildOk (K ++ L) g c := by
  obtain ⟨g', h1, h2⟩ := h
  refine ⟨g', ?_, h2⟩
  rw [List.getElem?_append_left]
  · exact h1
  · by_contra hc
    rw [List.getElem?_eq_none (by omega)] at h1
    cases h1

theorem getElem?_append_of_some {α : Type} {K L : List α} {c : ℕ} {x : α} (h : K[c]? = some x) :
    (K ++ L)[c]? = some x := by
  rw [List.getElem?_append_left]
  · exact h
  · by_contra hc
    rw [List.getElem?_eq_none (by omega)] at h
    cases h

theorem NodeOk.mono {K L : List Ghost} {g : Ghost} (h : NodeOk K g) : NodeOk (K ++ L) g := by
  refine ⟨fun c hc => (h.child c hc).mono, ?_, h.bound⟩
  rcases h.attained with h1 | ⟨c, hc, g', h1, h2⟩
  · exact Or.inl h1
  · exact Or.inr ⟨c, hc, g', getElem?_append_of_some h1, h2⟩

/-- The fields that linking children leaves alone. -/
def SameNode (n n' : StackNode) : Prop :=
  n'.pm = n.pm ∧ n'.mask = n.mask ∧ n'.idx = n.idx ∧ n'.zoom = n.zoom ∧ n'.bmask = n.bmask

theorem SameNode.refl (n : StackNode) : SameNode n n := ⟨rfl, rfl, rfl, rfl, rfl⟩

theorem SameNode.trans {a b c : StackNode} (h1 : SameNode a b) (h2 : SameNode b c) :
    SameNode a c := by
  obtain ⟨a1, a2, a3, a4, a5⟩ := h1
  obtain ⟨b1, b2, b3, b4, b5⟩ := h2
  exact ⟨b1.trans a1, b2.trans a2, b3.trans a3, b4.trans a4, b5.trans a5⟩

/-- The leaf limit is reached. -/
def Arena.Full (a : Arena) : Prop := a.softMax ≤ a.totalLeaves

/-- The phrase matches of the given nodes. -/
def labels (K : List Ghost) (cs : List ℕ) : List (Option Subquery) :=
  cs.map fun c => (K[c]?).bind fun g => g.node.pm

/-- The phrase matches of the bins that fit below the node. -/
def fitting (n : StackNode) (bins : List PmBin) : List Subquery :=
  bins.flatMap fun b => b.pms.filter fun pm => FitsBelow n pm

/-- The node has a child for each phrase match that fits below it. -/
def Complete (K : List Ghost) (g : Ghost) : Prop :=
  labels K g.node.children = (fitting g.node g.bins).map some

/-- The node has no other children, and none twice. -/
def Thin (K : List Ghost) (g : Ghost) : Prop :=
  (labels K g.node.children).Sublist ((fitting g.node g.bins).map some)

theorem labels_mono {K L : List Ghost} {cs : List ℕ} (h : ∀ c ∈ cs, c < K.length) :
    labels (K ++ L) cs = labels K cs := by
  unfold labels
  refine List.map_congr_left fun c hc => ?_
  rw [List.getElem?_append_left (h c hc)]

theorem fitsBelow_congr {n n' : StackNode} (h : SameNode n n') (pm : Subquery) :
    FitsBelow n' pm ↔ FitsBelow n pm := by
  unfold FitsBelow
  rw [h.2.1, h.2.2.1]

theorem fitting_congr {n n' : StackNode} (h : SameNode n n') (bins : List PmBin) :
    fitting n' bins = fitting n bins := by
  unfold fitting
  simp only [fitsBelow_congr h]

/-- The state `st'` extends `st`, with ghosts; the new children have the phrase matches `want`
unless the limit is reached. -/
structure Extends (relev : F64) (bins : List PmBin) (want : List Subquery)
    (st st' : StackNode × Arena) (K Knew : List Ghost) (newCh : List ℕ) : Prop where
  inv : GhostInv (K ++ Knew)
  nodes : (K ++ Knew).map Ghost.node = st'.2.nodes.map Prod.fst
  node : NodeOk (K ++ Knew) ⟨st'.1, relev, bins⟩
  children : st'.1.children = st.1.children ++ newCh
  nodup : (Knew.flatMap (fun g => g.node.children) ++ newCh).Nodup
  fresh : ∀ c ∈ Knew.flatMap (fun g => g.node.children) ++ newCh,
    K.length ≤ c ∧ c < (K ++ Knew).length
  thin : (∀ g ∈ Knew, Thin (K ++ Knew) g) ∧ (labels (K ++ Knew) newCh).Sublist (want.map some)
  full : ¬ st'.2.Full → (∀ g ∈ Knew, Complete (K ++ Knew) g) ∧
    labels (K ++ Knew) newCh = want.map some ∧
    st'.2.nodes = st.2.nodes ++ Knew.map fun g => (g.node, true)

/-- From every consistent ghost list the step can be followed. -/
structure Follows (relev : F64) (bins : List PmBin) (want : List Subquery)
    (st st' : StackNode × Arena) : Prop where
  same : SameNode st.1 st'.1
  full : st.2.Full → st'.2.Full
  ext : ∀ K, GhostInv K → K.map Ghost.node = st.2.nodes.map Prod.fst →
    NodeOk K ⟨st.1, relev, bins⟩ → ∃ Knew newCh, Extends relev bins want st st' K Knew newCh

theorem Follows.refl (relev : F64) (bins : List PmBin) (st : StackNode × Arena) :
    Follows relev bins [] st st := by
  refine ⟨SameNode.refl _, id, ?_⟩
  intro K hK hn ho
  refine ⟨[], [], ?_⟩
  exact ⟨by rwa [List.append_nil], by rwa [List.append_nil], by rwa [List.append_nil],
    by simp, by simp, by simp, ⟨by simp, List.Sublist.refl _⟩, fun _ => ⟨by simp, rfl, by simp⟩⟩

theorem Follows.skip {relev : F64} {bins : List PmBin} {st : StackNode × Arena}
    (hf : st.2.Full) (want : List Subquery) : Follows relev bins want st st := by
  refine ⟨SameNode.refl _, id, ?_⟩
  intro K hK hn ho
  refine ⟨[], [], ?_⟩
  exact ⟨by rwa [List.append_nil], by rwa [List.append_nil], by rwa [List.append_nil],
    by simp, by simp, by simp, ⟨by simp, List.nil_sublist _⟩, fun h => absurd hf h⟩

theorem Follows.trans {relev : F64} {bins : List PmBin} {w1 w2 : List Subquery}
    {st st1 st2 : StackNode × Arena}
    (h1 : Follows relev bins w1 st st1) (h2 : Follows relev bins w2 st1 st2) :
    Follows relev bins (w1 ++ w2) st st2 := by
  refine ⟨h1.same.trans h2.same, fun h => h2.full (h1.full h), ?_⟩
  intro K hK hn ho
  obtain ⟨A, ca, ea⟩ := h1.ext K hK hn ho
  obtain ⟨B, cb, eb⟩ := h2.ext (K ++ A) ea.inv ea.nodes ea.node
  refine ⟨A ++ B, ca ++ cb, ?_⟩
  have hassoc : K ++ (A ++ B) = K ++ A ++ B := (List.append_assoc _ _ _).symm
  have hf : ∀ c ∈ (A ++ B).flatMap (fun g => g.node.children) ++ (ca ++ cb),
      c ∈ A.flatMap (fun g => g.node.children) ++ ca ∨
        c ∈ B.flatMap (fun g => g.node.children) ++ cb := by
    intro c hc
    rw [List.flatMap_append] at hc
    simp only [List.mem_append] at hc ⊢
    tauto
  refine ⟨by rw [hassoc]; exact eb.inv, by rw [hassoc]; exact eb.nodes,
    by rw [hassoc]; exact eb.node,
    by rw [eb.children, ea.children, List.append_assoc], ?_, ?_, ?_, ?_⟩
  · have hp : ((A ++ B).flatMap (fun g => g.node.children) ++ (ca ++ cb)).Perm
        ((A.flatMap (fun g => g.node.children) ++ ca) ++
          (B.flatMap (fun g => g.node.children) ++ cb)) := by
      rw [List.flatMap_append, List.append_assoc, List.append_assoc]
      refine List.Perm.append_left _ ?_
      rw [← List.append_assoc, ← List.append_assoc]
      exact List.Perm.append_right _ List.perm_append_comm
    rw [hp.nodup_iff, List.nodup_append]
    refine ⟨ea.nodup, eb.nodup, ?_⟩
    intro x hx y hy hxy
    have h3 := ea.fresh x hx
    have h4 := eb.fresh y hy
    omega
  · intro c hc
    have hl : K.length ≤ (K ++ A).length := by simp
    have hl2 : (K ++ A).length ≤ (K ++ (A ++ B)).length := by simp
    rcases hf c hc with h | h
    · have := ea.fresh c h; omega
    · have := eb.fresh c h
      rw [hassoc]
      omega
  · refine ⟨?_, ?_⟩
    · intro g hg
      rw [hassoc]
      rcases List.mem_append.1 hg with hg | hg
      · unfold Thin
        rw [labels_mono]
        · exact ea.thin.1 g hg
        · intro c hc
          exact (ea.fresh c (List.mem_append.2 (Or.inl (List.mem_flatMap.2 ⟨g, hg, hc⟩)))).2
      · exact eb.thin.1 g hg
    · have h3 : labels (K ++ A ++ B) ca = labels (K ++ A) ca :=
        labels_mono fun c hc => (ea.fresh c (List.mem_append.2 (Or.inr hc))).2
      have h4 : labels (K ++ A ++ B) (ca ++ cb) =
          labels (K ++ A ++ B) ca ++ labels (K ++ A ++ B) cb := List.map_append
      rw [hassoc, List.map_append, h4, h3]
      exact ea.thin.2.append eb.thin.2
  · intro hnf
    obtain ⟨b1, b2, b3⟩ := eb.full hnf
    obtain ⟨a1, a2, a3⟩ := ea.full fun h => hnf (h2.full h)
    refine ⟨?_, ?_, ?_⟩
    · intro g hg
      rw [hassoc]
      rw [List.mem_append] at hg
      rcases hg with hg | hg
      · unfold Complete
        rw [labels_mono]
        · exact a1 g hg
        · intro c hc
          exact (ea.fresh c (List.mem_append.2 (Or.inl (List.mem_flatMap.2 ⟨g, hg, hc⟩)))).2
      · exact b1 g hg
    · have h3 : labels (K ++ A ++ B) ca = labels (K ++ A) ca :=
        labels_mono fun c hc => (ea.fresh c (List.mem_append.2 (Or.inr hc))).2
      rw [hassoc, List.map_append, ← b2, ← a2, ← h3]
      exact List.map_append
    · rw [b3, a3, List.map_append, List.append_assoc]

theorem flt_irrefl (a : F64) : F64.flt a a = false := by
  unfold F64.flt
  rw [decide_eq_false_iff_not]
  exact fun h => lt_irrefl _ h.2.2

theorem flt_trans_false {a b c : F64} (h1 : F64.flt a b = true) (h2 : F64.flt a c = false) :
    F64.flt b c = false := by
  unfold F64.flt at *
  rw [decide_eq_true_eq] at h1
  rw [decide_eq_false_iff_not] at h2 ⊢
  exact fun h3 => h2 ⟨h1.1, h3.2.1, lt_trans h1.2.2 h3.2.2⟩

/-- Adding one finished child. -/
theorem linkChild_ok {K : List Ghost} {n child : StackNode} {relev target : F64}
    {bins pre rest : List PmBin} {b : PmBin} {pm : Subquery} {i : ℕ}
    (hn : NodeOk K ⟨n, relev, bins⟩) (hi : K[i]? = some ⟨child, target, rest⟩)
    (hb : bins = pre ++ b :: rest) (hpm : pm ∈ b.pms) (hfit : FitsBelow n pm)
    (ht : target = relev + pm.weight)
    (h1 : child.pm = some pm) (h2 : child.mask = pm.mask ||| n.mask) (h3 : child.idx = pm.idx)
    (h4 : child.zoom = pm.store.zoom ∧ child.bmask = n.bmask ++ pm.nonOverlapping) :
    NodeOk K ⟨linkChild n child (some i), relev, bins⟩ := by
  have hmax : (linkChild n child (some i)).maxRelev =
      if F64.flt n.maxRelev child.maxRelev then child.maxRelev else n.maxRelev := rfl
  have hch : (linkChild n child (some i)).children = n.children ++ [i] := rfl
  have hnew : F64.flt (linkChild n child (some i)).maxRelev child.maxRelev = false := by
    rw [hmax]
    by_cases hc : F64.flt n.maxRelev child.maxRelev = true
    · rw [if_pos hc]; exact flt_irrefl _
    · rw [if_neg hc]; simpa using hc
  have hold : ∀ x, F64.flt n.maxRelev x = false →
      F64.flt (linkChild n child (some i)).maxRelev x = false := by
    intro x hx
    rw [hmax]
    by_cases hc : F64.flt n.maxRelev child.maxRelev = true
    · rw [if_pos hc]; exact flt_trans_false hc hx
    · rw [if_neg hc]; exact hx
  refine ⟨?_, ?_, hold _ hn.bound⟩
  · intro c hc
    simp only [hch, List.mem_append, List.mem_singleton] at hc
    rcases hc with hc | rfl
    · obtain ⟨g', e1, pre', b', rest', pm', e2, e3, e4, e5, e6, e7, e8, e9, e10, e11⟩ :=
        hn.child c hc
      exact ⟨g', e1, pre', b', rest', pm', e2, e3, e4, e5, e6, e7, e8, e9, e10, hold _ e11⟩
    · exact ⟨_, hi, pre, b, rest, pm, hb, hpm, hfit, rfl, ht, h1, h2, h3, h4, hnew⟩
  · by_cases hc : F64.flt n.maxRelev child.maxRelev = true
    · right
      refine ⟨i, by simp [hch], _, hi, ?_⟩
      simp only [hmax, if_pos hc]
    · have hm : (linkChild n child (some i)).maxRelev = n.maxRelev := by rw [hmax, if_neg hc]
      simp only [hm]
      rcases hn.attained with h | ⟨c, h, g', e1, e2⟩
      · exact Or.inl h
      · exact Or.inr ⟨c, by simp [hch, h], g', e1, e2⟩

/-- One phrase match of a bin (stackable.rs:225-260). -/
def stackStep (g : PmBin) (rest : List PmBin) (relev : F64) (st : StackNode × Arena)
    (pm : Subquery) : Option (StackNode × Arena) :=
  if st.1.mask &&& pm.mask = 0 ∧ st.1.idx ∉ pm.nonOverlapping then
    if st.2.isFull && F64.flt (relev + pm.weight + g.maxAfter) st.2.minRelev then some st
    else do
      let r ← stackLoop rest (relev + pm.weight) (childNode st.1 pm (relev + pm.weight), st.2)
      let added ← r.2.add r.1
      some (linkChild st.1 r.1 added.2, added.1)
  else some st

theorem stackLoop_cons (g : PmBin) (rest : List PmBin) (relev : F64) (st : StackNode × Arena) :
    stackLoop (g :: rest) relev st =
      (g.pms.foldlM (stackStep g rest relev) st).bind (stackLoop rest relev) := rfl

theorem stackStep_cases {g : PmBin} {rest : List PmBin} {relev : F64} {st st' : StackNode × Arena}
    {pm : Subquery} (h : stackStep g rest relev st pm = some st') :
    (¬ FitsBelow st.1 pm ∧ st' = st) ∨
    (FitsBelow st.1 pm ∧ st.2.isFull = true ∧ st' = st) ∨
    (FitsBelow st.1 pm ∧ ∃ r added,
      stackLoop rest (relev + pm.weight) (childNode st.1 pm (relev + pm.weight), st.2) = some r ∧
      r.2.add r.1 = some added ∧ st' = (linkChild st.1 r.1 added.2, added.1)) := by
  unfold stackStep at h
  by_cases hf : st.1.mask &&& pm.mask = 0 ∧ st.1.idx ∉ pm.nonOverlapping
  · rw [if_pos hf] at h
    right
    by_cases hfull : (st.2.isFull && F64.flt (relev + pm.weight + g.maxAfter) st.2.minRelev) = true
    · rw [if_pos hfull] at h
      cases h
      rw [Bool.and_eq_true] at hfull
      exact Or.inl ⟨hf, hfull.1, rfl⟩
    · rw [if_neg hfull] at h
      right
      refine ⟨hf, ?_⟩
      cases hr : stackLoop rest (relev + pm.weight)
          (childNode st.1 pm (relev + pm.weight), st.2) with
      | none => rw [hr] at h; cases h
      | some r =>
        rw [hr] at h
        cases ha : r.2.add r.1 with
        | none => simp [ha] at h
        | some added =>
          simp [ha] at h
          exact ⟨r, added, rfl, ha, h.symm⟩
  · rw [if_neg hf] at h
    cases h
    exact Or.inl ⟨hf, rfl⟩

theorem NodeOk.child_lt {K : List Ghost} {g : Ghost} (h : NodeOk K g) {c : ℕ}
    (hc : c ∈ g.node.children) : c < K.length := by
  obtain ⟨g', h1, _⟩ := h.child c hc
  by_contra hlt
  rw [List.getElem?_eq_none (by omega)] at h1
  cases h1

/-- One phrase match keeps the invariant, if the loops below it do. -/
theorem stackStep_follows {g : PmBin} {rest pre allBins : List PmBin} {relev : F64}
    {st st' : StackNode × Arena} {pm : Subquery}
    (ih : ∀ {relev : F64} {st st' : StackNode × Arena}, stackLoop rest relev st = some st' →
      Follows relev rest (fitting st.1 rest) st st')
    (hall : allBins = pre ++ g :: rest) (hpm : pm ∈ g.pms)
    (h : stackStep g rest relev st pm = some st') :
    Follows relev allBins (if FitsBelow st.1 pm then [pm] else []) st st' := by
  rcases stackStep_cases h with ⟨hfit, rfl⟩ | ⟨hfit, hfull, rfl⟩ | ⟨hfit, r, added, hr, hadd, rfl⟩
  · rw [if_neg hfit]
    exact Follows.refl _ _ _
  · exact Follows.skip (by simpa [Arena.isFull, Arena.Full] using hfull) _
  · rw [if_pos hfit]
    have hchild := ih hr
    rcases added with ⟨a', ix⟩
    have hcases := Arena.add_cases hadd
    have hsame : SameNode st.1 (linkChild st.1 r.1 ix) := by
      cases ix <;> exact SameNode.refl _
    refine ⟨hsame, ?_, ?_⟩
    · intro hf
      have h1 := hchild.full hf
      rcases hcases with ⟨h2, _⟩ | ⟨_, _, h4, h5⟩
      · rw [h2]; exact h1
      · unfold Arena.Full at *
        simp only
        omega
    intro K hK hn ho
    obtain ⟨A, ca, ea⟩ := hchild.ext K hK hn
      ⟨fun c hc => absurd hc List.not_mem_nil, Or.inl rfl, flt_irrefl _⟩
    have hca : r.1.children = ca := by rw [ea.children]; rfl
    obtain ⟨s1, s2, s3, s4, s5⟩ := hchild.same
    have hlen : (K ++ A).length = r.2.nodes.length := by
      have := congrArg List.length ea.nodes
      simpa using this
    rcases hcases with ⟨h1, h2, hfull⟩ | ⟨h1, h2, h3, h4⟩
    · subst h1 h2
      refine ⟨A, [], ea.inv, ea.nodes, ho.mono, ?_, ?_, ?_, ⟨ea.thin.1, List.nil_sublist _⟩,
        fun hnf => absurd hfull hnf⟩
      · show st.1.children = _
        simp
      · have := ea.nodup
        rw [List.nodup_append] at this
        simpa using this.1
      · intro c hc
        exact ea.fresh c (by simp only [List.append_nil] at hc; simp [hc])
    · subst h1
      set gnew : Ghost := ⟨r.1, relev + pm.weight, rest⟩ with hg
      have hassoc : K ++ (A ++ [gnew]) = (K ++ A) ++ [gnew] := (List.append_assoc _ _ _).symm
      have hget : (K ++ (A ++ [gnew]))[r.2.nodes.length]? = some gnew := by
        rw [hassoc, ← hlen]
        simp
      have hp : ((A ++ [gnew]).flatMap (fun g => g.node.children) ++ [r.2.nodes.length]) =
          (A.flatMap (fun g => g.node.children) ++ ca) ++ [r.2.nodes.length] := by
        rw [List.flatMap_append, List.flatMap_singleton, hg, hca]
      have hlab : labels (K ++ (A ++ [gnew])) [r.2.nodes.length] = [pm].map some := by
        unfold labels
        rw [List.map_singleton, hget]
        show [r.1.pm] = _
        rw [s1]
        rfl
      refine ⟨A ++ [gnew], [r.2.nodes.length], ?_, ?_, ?_, rfl, ?_, ?_, ⟨?_, ?_⟩, ?_⟩
      · rw [hassoc]
        intro i g' hi
        by_cases hlt : i < (K ++ A).length
        · rw [List.getElem?_append_left hlt] at hi
          obtain ⟨p1, p2⟩ := ea.inv i g' hi
          exact ⟨p1.mono, p2⟩
        · rw [List.getElem?_append_right (by omega)] at hi
          have hi0 : i - (K ++ A).length = 0 := by
            by_contra hc
            rw [List.getElem?_eq_none (by simp only [List.length_singleton]; omega)] at hi
            cases hi
          rw [hi0] at hi
          simp only [List.getElem?_cons_zero, Option.some.injEq] at hi
          subst hi
          refine ⟨ea.node.mono, ?_⟩
          intro c hc
          have := ea.fresh c (by
            rw [List.mem_append]; right
            rw [← hca]; exact hc)
          omega
      · rw [hassoc, List.map_append, ea.nodes, h2]
        rfl
      · refine linkChild_ok ho.mono hget hall hpm hfit rfl ?_ ?_ ?_ ?_
        · rw [s1]; rfl
        · rw [s2]; rfl
        · rw [s3]; rfl
        · exact ⟨by rw [s4]; rfl, by rw [s5]; rfl⟩
      · rw [hp, List.nodup_append]
        refine ⟨ea.nodup, List.nodup_singleton _, ?_⟩
        intro x hx y hy hxy
        rw [List.mem_singleton] at hy
        have := ea.fresh x hx
        omega
      · intro c hc
        rw [hp, List.mem_append, List.mem_singleton] at hc
        rw [hassoc, List.length_append, List.length_singleton]
        rcases hc with hc | rfl
        · have := ea.fresh c hc; omega
        · have : K.length ≤ (K ++ A).length := by simp
          omega
      · intro g' hg'
        rw [hassoc]
        rw [List.mem_append, List.mem_singleton] at hg'
        unfold Thin
        rcases hg' with hg' | rfl
        · rw [labels_mono]
          · exact ea.thin.1 g' hg'
          · intro c hc
            exact (ea.fresh c (List.mem_append.2 (Or.inl (List.mem_flatMap.2 ⟨g', hg', hc⟩)))).2
        · rw [labels_mono]
          · show (labels (K ++ A) r.1.children).Sublist ((fitting r.1 rest).map some)
            rw [hca, fitting_congr hchild.same]
            exact ea.thin.2
          · intro c hc
            exact (ea.fresh c (List.mem_append.2 (Or.inr (hca ▸ hc)))).2
      · rw [hlab]
      · intro hnf
        have hnf' : ¬ r.2.Full := by
          unfold Arena.Full at *
          simp only at hnf
          omega
        obtain ⟨a1, a2, a3⟩ := ea.full hnf'
        refine ⟨?_, ?_, ?_⟩
        · intro g' hg'
          rw [hassoc]
          rw [List.mem_append, List.mem_singleton] at hg'
          unfold Complete
          rcases hg' with hg' | rfl
          · rw [labels_mono]
            · exact a1 g' hg'
            · intro c hc
              exact (ea.fresh c (List.mem_append.2 (Or.inl (List.mem_flatMap.2 ⟨g', hg', hc⟩)))).2
          · rw [labels_mono]
            · show labels (K ++ A) r.1.children = (fitting r.1 rest).map some
              rw [hca, a2, fitting_congr hchild.same]
            · intro c hc
              exact (ea.fresh c (List.mem_append.2 (Or.inr (hca ▸ hc)))).2
        · exact hlab
        · have h5 : a'.nodes = r.2.nodes ++ [(r.1, true)] := by
            rcases h4 with h4 | h4
            · exact h4.2.1
            · exact absurd h4.1 hnf'
          show a'.nodes = _
          rw [h5, a3, List.map_append, List.append_assoc]
          rfl

/-- The loops keep the invariant. -/
theorem stackLoop_follows {bins : List PmBin} : ∀ {relev : F64} {st st' : StackNode × Arena}
    {allBins pre : List PmBin}, stackLoop bins relev st = some st' → allBins = pre ++ bins →
    Follows relev allBins (fitting st.1 bins) st st' := by
  induction bins with
  | nil =>
    intro relev st st' allBins pre h _
    cases h
    exact Follows.refl _ _ _
  | cons g rest ih =>
    intro relev st st' allBins pre h hall
    rw [stackLoop_cons] at h
    cases hm : g.pms.foldlM (stackStep g rest relev) st with
    | none => rw [hm] at h; cases h
    | some stm =>
      rw [hm, Option.bind_some] at h
      have hrest : allBins = (pre ++ [g]) ++ rest := by rw [hall]; simp
      have hfold : ∀ (l : List Subquery) (b b' : StackNode × Arena), (∀ pm ∈ l, pm ∈ g.pms) →
          l.foldlM (stackStep g rest relev) b = some b' →
          Follows relev allBins (l.filter fun pm => FitsBelow b.1 pm) b b' := by
        intro l
        induction l with
        | nil =>
          intro b b' _ hb
          rw [List.foldlM_nil] at hb
          cases hb
          exact Follows.refl _ _ _
        | cons pm t iht =>
          intro b b' hl hb
          rw [List.foldlM_cons] at hb
          cases hb1 : stackStep g rest relev b pm with
          | none => rw [hb1] at hb; cases hb
          | some b1 =>
            rw [hb1] at hb
            have f1 : Follows relev allBins _ b b1 :=
              stackStep_follows (fun h => ih (pre := []) h rfl) hall (hl pm (by simp)) hb1
            have f2 := iht b1 b' (fun q hq => hl q (by simp [hq])) hb
            have heq : t.filter (fun pm => FitsBelow b1.1 pm) =
                t.filter (fun pm => FitsBelow b.1 pm) := by
              simp only [fitsBelow_congr f1.same]
            rw [heq] at f2
            have f3 := f1.trans f2
            rw [List.filter_cons]
            by_cases hfit : FitsBelow b.1 pm
            · simpa [hfit] using f3
            · simpa [hfit] using f3
      have f1 := hfold g.pms st stm (fun _ h => h) hm
      have f2 := ih h hrest
      rw [fitting_congr f1.same] at f2
      exact f1.trans f2

end Carmen

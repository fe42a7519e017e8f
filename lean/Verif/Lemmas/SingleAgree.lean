import Verif.Lemmas.CoalesceOrder
import Verif.Lemmas.QueryIds
import Verif.Lemmas.SingleLoop
import Verif.Props.Queue
import Verif.Model.TreeCoalesce
import Verif.Spec.Agree

/-!
# Tree coalesce of a single phrase match
-/

namespace Carmen
open Spec

/-! ## Labels do not matter to the loop -/

/-- The variables without labels. -/
def SingleState.unlabel (s : SingleState) : SingleState :=
  { s with coalesced := s.coalesced.map fun p => (p.1, unlabelEntry p.2) }

theorem upsert_map {V W : Type} (f : V → W) (k : ℕ) (v : V) (g : V → V) (h : W → W)
    (hgh : ∀ v, f (g v) = h (f v)) (m : HMap ℕ V) :
    (HMap.upsert k v g m).map (fun p => (p.1, f p.2)) =
      HMap.upsert k (f v) h (m.map fun p => (p.1, f p.2)) := by
  induction m with
  | nil => simp [HMap.upsert, hgh]
  | cons p t ih =>
    simp only [HMap.upsert, List.map_cons]
    split_ifs
    · simp [hgh]
    · simp [ih]

theorem betterOf_unlabel (a b : CoalesceEntry) :
    unlabelEntry (betterOf a b) = betterOf (unlabelEntry a) (unlabelEntry b) := by
  simp only [betterOf, apply_ite unlabelEntry]
  rfl

theorem record_unlabel (s : SingleState) (e : CoalesceEntry) :
    (s.record e).unlabel = s.unlabel.record (unlabelEntry e) := by
  simp only [SingleState.record, SingleState.unlabel]
  rw [upsert_map unlabelEntry _ _ _ _ (fun v => betterOf_unlabel e v)]
  rfl

theorem mkEntry_unlabel (chk : Bool) (opts : MatchOpts) (q : Subquery) (pid : ℕ) (g : MatchEntry) :
    mkEntry chk opts q 0 g = (mkEntry chk opts q pid g).map unlabelEntry := by
  unfold mkEntry
  split_ifs <;> rfl

theorem singleLoop_unlabel (chk : Bool) (opts : MatchOpts) (q : Subquery) (pid : ℕ) (np : Bool)
    (s : SingleState) (grids : List MatchEntry) :
    singleLoop (mkEntry chk opts q 0) np s.unlabel grids =
      (singleLoop (mkEntry chk opts q pid) np s grids).map SingleState.unlabel := by
  induction grids generalizing s with
  | nil => rfl
  | cons g t ih =>
    unfold singleLoop
    rw [mkEntry_unlabel chk opts q pid g]
    cases hm : mkEntry chk opts q pid g with
    | none => rfl
    | some e =>
      simp only [Option.map_some, Option.bind_eq_bind, Option.bind_some]
      have hmove : singleMove np s.unlabel (unlabelEntry e) = singleMove np s e := rfl
      rw [hmove]
      cases singleMove np s e with
      | skip => exact ih s
      | stop => rfl
      | take =>
        simp only
        rw [← record_unlabel]
        exact ih _
      | takeAndStop =>
        simp only [Option.map_some]
        rw [record_unlabel]

/-! ## Sorted lists with distinct keys -/

theorem sorted_unique {α K : Type} [LinearOrder K] {key : α → K} {a b : List α} (hp : a.Perm b)
    (ha : a.Pairwise fun x y => key y ≤ key x) (hb : b.Pairwise fun x y => key y ≤ key x)
    (hinj : ∀ x ∈ a, ∀ y ∈ a, key x = key y → x = y) : a = b := by
  refine List.Perm.eq_of_pairwise ?_ ha hb hp
  intro x y hx hy h1 h2
  exact hinj x hx y (hp.mem_iff.2 hy) (le_antisymm h2 h1)

/-- The best elements in order are the first ones of all in order. -/
theorem best_take {α K : Type} [LinearOrder K] {key : α → K} {n : ℕ} {all kept out l : List α}
    (h : IsBest key n all kept out) (hl : l.Perm kept)
    (hs : l.Pairwise fun x y => key y ≤ key x)
    (hinj : ∀ x ∈ all, ∀ y ∈ all, key x = key y → x = y) :
    l = (all.insertionSort fun x y => key y ≤ key x).take n := by
  have hp1 := List.perm_insertionSort (fun x y => key y ≤ key x) out
  have hp : (l ++ out.insertionSort fun x y => key y ≤ key x).Perm all :=
    (hl.append hp1).trans h.perm
  have hsorted : (l ++ out.insertionSort fun x y => key y ≤ key x).Pairwise
      fun x y => key y ≤ key x := by
    rw [List.pairwise_append]
    exact ⟨hs, pairwise_insertionSort_desc key out,
      fun a ha b hb => h.best a (hl.mem_iff.1 ha) b (hp1.mem_iff.1 hb)⟩
  have heq := sorted_unique (hp.trans (List.perm_insertionSort (fun x y => key y ≤ key x) all).symm)
    hsorted (pairwise_insertionSort_desc key all)
    (fun x hx y hy => hinj x (hp.mem_iff.1 hx) y (hp.mem_iff.1 hy))
  rw [← heq]
  have hlen : l.length = min n all.length := hl.length_eq.trans h.size
  rcases le_total n all.length with hle | hle
  · rw [List.take_append_of_le_length (by omega), List.take_of_length_le (by omega)]
  · have hout : out.length = 0 := by
      have := h.perm.length_eq
      rw [List.length_append, h.size] at this
      omega
    rw [List.eq_nil_of_length_eq_zero hout, List.insertionSort_nil, List.append_nil,
      List.take_of_length_le (by omega)]

theorem cpqPushAll_mem {α K : Type} [LinearOrder K] {key : α → K} (H : Heap key) (n : ℕ)
    (es : List α) : ∀ a ∈ cpqPushAll H n [] es, a ∈ es := by
  intro a ha
  obtain ⟨out, h⟩ := C28_queue_keeps_best H n es
  exact h.perm.mem_iff.1 (List.mem_append_left _ ha)

/-- Two bounded queues in a row, the second one large enough. -/
theorem twice_take {α K : Type} [LinearOrder K] {key : α → K} (H : Heap key) {n m : ℕ} (hnm : n ≤ m)
    (es : List α) (hinj : ∀ x ∈ es, ∀ y ∈ es, key x = key y → x = y) :
    H.intoVecDesc (cpqPushAll H m [] (cpqPushAll H n [] es)) =
      (es.insertionSort fun x y => key y ≤ key x).take n := by
  obtain ⟨out, h⟩ := C28_queue_keeps_best H n es
  obtain ⟨out', h'⟩ := C28_queue_keeps_best H m (cpqPushAll H n [] es)
  have hlen : (cpqPushAll H n [] es).length ≤ m := by
    have := h.size
    omega
  have hnil : out' = [] := by
    have h1 := h'.perm.length_eq
    rw [List.length_append, h'.size, Nat.min_eq_right hlen] at h1
    exact List.eq_nil_of_length_eq_zero (by omega)
  have hp := h'.perm
  rw [hnil, List.append_nil] at hp
  exact best_take h ((H.intoVecDesc_perm _).trans hp) (H.intoVecDesc_sorted _) hinj

/-! ## Picking from distinct features -/

theorem pick_takeWhile (r : F64) (n : ℕ) (seen : List ℕ) (cs : List Context)
    (hn : n + cs.length ≤ maxContexts) (hseen : ∀ c ∈ cs, c.first.tmpId ∉ seen)
    (hnd : cs.Pairwise fun a b => a.first.tmpId ≠ b.first.tmpId) :
    pickContexts r n seen cs = cs.takeWhile fun d => !F64.fle (lit 0.25) (r - d.relev) := by
  induction cs generalizing n seen with
  | nil => rfl
  | cons c t ih =>
    rw [List.length_cons] at hn
    obtain ⟨h1, h2⟩ := List.pairwise_cons.1 hnd
    unfold pickContexts
    rw [if_neg (by omega), List.takeWhile_cons]
    by_cases hf : F64.fle (lit 0.25) (r - c.relev) = true
    · rw [if_pos hf, hf]
      rfl
    · rw [if_neg hf, if_neg (hseen c List.mem_cons_self)]
      rw [Bool.not_eq_true] at hf
      rw [hf]
      simp only [Bool.not_false, if_true]
      rw [ih (n + 1) _ (by omega) _ h2]
      intro d hd
      rw [List.mem_cons, not_or]
      exact ⟨(h1 d hd).symm, hseen d (List.mem_cons_of_mem _ hd)⟩

theorem tmpId_inj {idx id id' : ℕ} (h : id < 2 ^ 24) (h' : id' < 2 ^ 24)
    (heq : tmpIdOf idx id = tmpIdOf idx id') : id = id' := by
  unfold tmpIdOf at heq
  omega

/-! ## The tree of a single phrase match -/

/-- The only node of the tree. -/
def singleNode (q : Subquery) : StackNode := childNode rootNode q (0 + q.weight)

theorem collapse_single (q : Subquery) : collapse [q] = some [q] := rfl

theorem pmBins_single (q : Subquery) :
    ∃ r, pmBins [q] = [⟨[q], r, 0⟩] := by
  exact ⟨if F64.flt 0 q.weight then q.weight else 0, rfl⟩

theorem stackable_single {q : Subquery} (h : 129 ∉ q.nonOverlapping) :
    ∃ t, stackable [q] = some t ∧ t.root.pm = none ∧ t.root.children = [0] ∧
      t.arena.get 0 = some (singleNode q) ∧ t.arena.nodes.length = 1 := by
  obtain ⟨r, hr⟩ := pmBins_single q
  unfold stackable stackableWith
  rw [hr]
  simp only [stackLoop, List.foldlM_cons, List.foldlM_nil]
  have h1 : (rootNode, Arena.new leafSoftMax).1.mask &&& q.mask = 0 ∧
      (rootNode, Arena.new leafSoftMax).1.idx ∉ q.nonOverlapping := ⟨Nat.zero_and _, h⟩
  rw [if_pos h1]
  have h2 : (rootNode, Arena.new leafSoftMax).2.isFull = false := rfl
  rw [h2]
  simp only [Bool.false_and, Bool.false_eq_true, if_false, Option.bind_eq_bind, Option.bind_some,
    Option.pure_def]
  have h3 : ∃ a, (Arena.new leafSoftMax).add (childNode rootNode q (0 + q.weight)) =
      some (a, some 0) ∧ a.get 0 = some (singleNode q) ∧ a.nodes.length = 1 := by
    unfold Arena.add
    rw [if_neg (by rintro ⟨h, -⟩; revert h; decide)]
    simp only
    rw [if_pos (by decide)]
    exact ⟨_, rfl, rfl, rfl⟩
  obtain ⟨a, ha, hget, hlen⟩ := h3
  rw [ha]
  exact ⟨_, rfl, rfl, rfl, hget, hlen⟩

/-- The only step. -/
def singleStep (q : Subquery) (opts : MatchOpts) : Step :=
  ⟨singleNode q, 0, q, none, 0, opts, q.weight, containsProx q opts⟩

theorem adjust_same {env : Env} {opts : MatchOpts} {z : ℕ} (h : opts.zoom = z) :
    env.adjust opts z = some opts := by
  unfold Env.adjust MatchOpts.adjustToZoomChecked MatchOpts.adjustToZoom
  simp [h]

theorem treeInit_single {env : TreeEnv} {t : StackTree} {q : Subquery} {opts : MatchOpts}
    (hroot : t.root.pm = none) (hch : t.root.children = [0])
    (hget : t.arena.get 0 = some (singleNode q)) (hz : opts.zoom = q.store.zoom) :
    ∃ s, treeInit env t opts = some s ∧ s.steps = [singleStep q opts] ∧ s.contexts = [] ∧
      s.cache = [] ∧ s.counts = ⟨0, 0, 0, 0, 0⟩ ∧ s.stopped = none := by
  have hfirst : firstSteps env t opts = some [singleStep q opts] := by
    unfold firstSteps
    rw [hch, List.mapM_cons, List.mapM_nil, hget]
    have hpm : (singleNode q).pm = some q := rfl
    simp only [hpm, Option.bind_some, newStep, adjust_same hz, Option.bind_eq_bind,
      Option.map_some, Option.pure_def]
    rfl
  unfold treeInit
  rw [hroot, hfirst]
  simp only [Option.isSome_none, Bool.and_false, Bool.false_eq_true, if_false, Option.map_some,
    List.foldl_cons, List.foldl_nil]
  exact ⟨_, rfl, List.perm_singleton.1 (env.steps.push_perm [] _), rfl, rfl, rfl, rfl⟩

theorem fresh_quotas (slow isRange oneWord fresh : Bool) (kg : KeyWithId) :
    (takeQuotas slow isRange oneWord fresh kg ⟨0, 0, 0, 0, 0⟩).2 = true := by
  unfold takeQuotas Counts.andThen Counts.takeHigh Counts.takeWord Counts.takeOneWord
    Counts.takeOneWordHigh Counts.takeOneLetter Counts.takeHighRange Counts.takeAllHigh
    Counts.andThen oneLetterQuota oneWordHighQuota oneWordQuota allHighRangeQuota allHighQuota
  by_cases h : kg.phraseLength = 1 <;> cases kg.nearbyOnly <;> cases slow <;> cases isRange <;>
    cases oneWord <;> cases fresh <;> simp [h]

theorem worth_it {env : TreeEnv} {q : Subquery} {opts : MatchOpts} (hw : 0 < q.weight) :
    notWorthIt env [] (singleStep q opts) = false := by
  unfold notWorthIt
  rw [(env.contexts.peekMax_none []).2 rfl]
  have h0 : lit 0.75 * (((none : Option Context).map (·.relev)).getD 0) = 0 := by
    simp only [Option.map_none, Option.getD_none]
    decide +kernel
  rw [h0]
  have : F64.fle q.weight 0 = false := by
    by_contra hc
    rw [Bool.not_eq_false] at hc
    by_cases hn : q.weight = .nan
    · rw [hn] at hc
      exact absurd hc (by decide)
    · exact absurd ((fle_iff hn (by decide)).1 hc) (not_le.2 hw)
  have h1 : (singleStep q opts).possible = q.weight := rfl
  rw [h1, this, Bool.and_false]

theorem fill_single {env : TreeEnv} {q : Subquery} {kg : KeyWithId} {opts : MatchOpts}
    (hk : q.matchKeys = [kg]) (hnear : kg.nearbyOnly = false) (hw : 0 < q.weight) {isRange : Bool}
    (hr : isRangeKey env.chk kg.key.phrase = some isRange) {s : TreeState}
    (hs : s.steps = [singleStep q opts]) (hc : s.contexts = []) (hcache : s.cache = [])
    (hcounts : s.counts = ⟨0, 0, 0, 0, 0⟩) :
    ∃ f, s.fill env = some f ∧ f.steps = [] ∧ f.keys = [⟨kg, q, opts, true⟩] ∧ f.chunk = [] := by
  have hmax : env.steps.peekMax [singleStep q opts] = some (singleStep q opts) := by
    cases h : env.steps.peekMax [singleStep q opts] with
    | none => exact absurd ((env.steps.peekMax_none _).1 h) (by simp)
    | some m => rw [List.mem_singleton.1 (env.steps.peekMax_mem _ _ h)]
  have hpop : env.steps.popMax [singleStep q opts] = [] :=
    List.perm_nil.1 ((List.perm_cons _).1 (env.steps.popMax_perm _ _ hmax))
  have hcons : considerKey env [] [] (singleStep q opts) true
      ⟨[], ⟨0, 0, 0, 0, 0⟩, [], [], false, [], 0, [], none⟩ kg =
      some ⟨[], (takeQuotas q.store.mightBeSlow isRange (oneToken q.mask) true kg
        ⟨0, 0, 0, 0, 0⟩).1, [(kg.id, true)], [⟨kg, q, opts, true⟩], true, [], 0, [], none⟩ := by
    unfold considerKey
    simp only [Bool.not_true, Bool.false_and, Bool.false_eq_true, if_false, keyOpts, hnear,
      Option.bind_eq_bind, Option.bind_some, hr, worth_it hw, Bool.and_false]
    have hq : (takeQuotas (singleStep q opts).q.store.mightBeSlow isRange
        (oneToken (singleStep q opts).q.mask) (!decide ((kg.id, true) ∈ ([] : List (ℕ × Bool)))) kg
        ⟨0, 0, 0, 0, 0⟩).2 = true := fresh_quotas _ _ _ _ _
    rw [hq]
    rfl
  unfold TreeState.fill
  rw [hs, hc, hcache, hcounts]
  simp only [List.length_cons, List.length_nil, Nat.zero_add, fillChunk]
  rw [if_neg (by decide), hmax]
  have hcb : cannotBeat env [] (singleStep q opts) = false := rfl
  have hq : (singleStep q opts).q.matchKeys = [kg] := hk
  have hsg : (singleStep q opts).isSingle = true := rfl
  simp only [hcb, Bool.false_eq_true, if_false, hpop, hq, hsg, List.foldlM_cons, List.foldlM_nil,
    hcons, Option.bind_eq_bind, Option.bind_some, Option.pure_def]
  exact ⟨_, rfl, rfl, rfl, rfl⟩

theorem treeCoalesce_single {env : TreeEnv} {q : Subquery} {kg : KeyWithId} {opts : MatchOpts}
    (hk : q.matchKeys = [kg]) (hnear : kg.nearbyOnly = false) (hw : 0 < q.weight) {isRange : Bool}
    (hr : isRangeKey env.chk kg.key.phrase = some isRange) (hz : opts.zoom = q.store.zoom)
    (hov : 129 ∉ q.nonOverlapping) :
    stackAndCoalesce env [q] opts =
      (env.query q.store kg.key opts (2 * maxContexts)).bind fun grids =>
        (treeSingle env.toEnv q opts grids kg.id).map fun cs =>
          env.contexts.intoVecDesc (cpqPushAll env.contexts maxResults []
            (cpqPushAll env.contexts maxContexts [] cs)) := by
  obtain ⟨t, ht, hroot, hch, hget, hlen⟩ := stackable_single hov
  obtain ⟨s, hs, hsteps, hctx, hcache, hcounts, hstop⟩ := treeInit_single (env := env) hroot hch
    hget hz
  obtain ⟨f, hf, hfs, hfk, hfc⟩ := fill_single hk hnear hw hr hsteps hctx hcache hcounts
  unfold stackAndCoalesce
  simp only [collapse_single, Option.bind_eq_bind, Option.bind_some, ht, treeCoalesce, hs, hlen,
    treeLoop]
  have hfin : s.finished = false := by
    unfold TreeState.finished
    rw [hsteps, hstop]
    rfl
  rw [hfin]
  simp only [Bool.false_eq_true, if_false, treeRound, hf, hfk, hfc, hfs, hctx, hcache,
    List.mapM_cons, List.mapM_nil, fetchKey, if_true, Option.bind_eq_bind, Option.bind_some,
    Option.pure_def]
  cases env.query q.store kg.key opts (2 * maxContexts) with
  | none => rfl
  | some grids =>
    simp only [Option.bind_some]
    cases treeSingle env.toEnv q opts grids kg.id with
    | none => rfl
    | some cs => rfl

end Carmen

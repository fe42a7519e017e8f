import Verif.Lemmas.TreeGenuine
import Verif.Props.Coalesce

/-!
# The bound behind the early stop of `tree_coalesce`
-/

namespace Carmen
open Spec

/-! ## Sums -/

theorem add_le_add_fin {a b c d : F64} (ha : a ≠ .nan) (hc : c ≠ .nan) (hb : b.IsFin)
    (hd : d.IsFin) (h1 : a ≤ c) (h2 : b ≤ d) : a + b ≤ c + d := by
  cases a with
  | nan => exact absurd rfl ha
  | inf s =>
    obtain ⟨b, rfl⟩ := hb.exists
    cases s with
    | true => exact F64.ninf_le _
    | false =>
      cases c with
      | nan => exact absurd rfl hc
      | inf s' =>
        cases s' with
        | true => exact absurd h1 (by decide)
        | false =>
          obtain ⟨d, rfl⟩ := hd.exists
          exact le_rfl
      | fin q => exact absurd h1 (by simp [F64.le_def, F64.rank, Prod.Lex.le_iff])
  | fin p =>
    cases c with
    | nan => exact absurd rfl hc
    | inf s' =>
      cases s' with
      | true => exact absurd h1 (by simp [F64.le_def, F64.rank, Prod.Lex.le_iff])
      | false =>
        obtain ⟨d, rfl⟩ := hd.exists
        exact F64.le_inf_of_ne_nan (add_ne_nan F64.noConfusion hb)
    | fin q => exact F64.add_mono trivial hb trivial hd h1 h2

theorem sub_le_self {a b : F64} (ha : a ≠ .nan) (hv : a.Valid) (hb : b.IsFin) (hb0 : 0 ≤ b) :
    a - b ≤ a := by
  obtain ⟨b, rfl⟩ := hb.exists
  cases a with
  | nan => exact absurd rfl ha
  | inf s => exact le_rfl
  | fin p =>
    have h := F64.sub_mono (a := .fin p) (b := .fin b) (c := .fin p) (d := 0) trivial trivial
      trivial trivial le_rfl hb0
    have h0 : (F64.fin p) - 0 = .fin p := by
      show F64.ofRat (p + -0) = _
      rw [neg_zero, add_zero]
      exact F64.ofRat_of_valid hv
    rwa [h0] at h

theorem add_fin_valid {a b : F64} (hb : b.IsFin) : (a + b).Valid := by
  obtain ⟨b, rfl⟩ := hb.exists
  cases a with
  | nan => trivial
  | inf s => trivial
  | fin p => exact F64.ofRat_valid _

theorem foldl_add_le {ls : List Level} (h : ∀ l ∈ ls, l.relev.IsFin ∧ l.q.weight.IsFin ∧
    l.relev ≤ l.q.weight) {a b : F64} (ha : a ≠ .nan) (hv : a.Valid) (hb : b ≠ .nan)
    (hab : a ≤ b) :
    (ls.map Level.relev).foldl (· + ·) a ≠ .nan ∧
    ((ls.map Level.relev).foldl (· + ·) a).Valid ∧
    (ls.map Level.relev).foldl (· + ·) a ≤
      (ls.map (·.q)).foldl (fun r q => r + q.weight) b := by
  induction ls generalizing a b with
  | nil => exact ⟨ha, hv, hab⟩
  | cons l t ih =>
    obtain ⟨h1, h2, h3⟩ := h l (by simp)
    rw [List.map_cons, List.map_cons, List.foldl_cons, List.foldl_cons]
    exact ih (fun l' hl' => h l' (List.mem_cons_of_mem _ hl')) (add_ne_nan ha h1)
      (add_fin_valid h1) (add_ne_nan hb h2) (add_le_add_fin ha hb h1 h2 hab h3)

theorem level_relev {env : Env} {opts : MatchOpts} {limit : ℕ} {l : Level}
    (h : l.Answers env opts limit) (hw : l.q.weight.IsFin) (hv : l.q.weight.Valid)
    (h0 : 0 ≤ l.q.weight) : l.relev.IsFin ∧ 0 ≤ l.relev ∧ l.relev ≤ l.q.weight ∧
      l.relev.Valid := by
  obtain ⟨_, _, o, grids, _, hq, hg⟩ := h
  obtain ⟨h1, h2, h3, h4⟩ := (getMatching_mem hq l.grid hg).relev_bounds
  have h5 : 0 ≤ l.relev := F64.mul_nonneg' h1 hw h3.le h0
  have h6 := F64.mul_le_right h1 hw hv h0 h4
  refine ⟨isFin_of_between hw h5 h6, h5, h6, ?_⟩
  unfold Level.relev
  obtain ⟨a, ha⟩ := h1.exists
  obtain ⟨b, hb⟩ := hw.exists
  rw [ha, hb]
  exact F64.ofRat_valid _

/-- No context has a relevance above the sum of the weights on its path. -/
theorem StackedFrom.relev_le {env : TreeEnv} {t : StackTree} {opts : MatchOpts}
    {pms : List Subquery} (hr : RunOk env t opts pms) (hw : WeightsOk pms) {ls : List Level}
    {c : Context} (h : StackedFrom env.toEnv t opts ls c) :
    c.relev ≤ stackRelev (ls.map (·.q)) := by
  have hans : ∀ l ∈ ls, ∃ limit, l.Answers env.toEnv opts limit := by
    intro l hl
    by_cases ha : Alone ls
    · exact ⟨80, h.answers l hl 80 (fun _ => rfl) (fun hn => absurd ha hn)⟩
    · exact ⟨100000, h.answers l hl 100000 (fun hn => absurd hn ha) (fun _ => rfl)⟩
  have hq : ∀ l ∈ ls, l.q ∈ pms := by
    intro l hl
    obtain ⟨limit, ha⟩ := hans l hl
    exact (path_pms hr h.path).1 l.node (List.mem_map_of_mem hl) l.q ha.1
  have hlev : ∀ l ∈ ls, l.relev.IsFin ∧ l.q.weight.IsFin ∧ l.relev ≤ l.q.weight ∧
      l.relev.Valid := by
    intro l hl
    obtain ⟨limit, ha⟩ := hans l hl
    obtain ⟨w1, w2, w3⟩ := hw l.q (hq l hl)
    obtain ⟨h1, _, h3, h4⟩ := level_relev ha w1 w2 w3
    exact ⟨h1, w1, h3, h4⟩
  have hsum : sumRelev (ls.map Level.relev) ≠ .nan ∧ (sumRelev (ls.map Level.relev)).Valid ∧
      sumRelev (ls.map Level.relev) ≤ stackRelev (ls.map (·.q)) := by
    cases hls : ls with
    | nil => exact absurd hls h.ne
    | cons l r =>
      rw [hls] at hlev hq
      obtain ⟨h1, h2, h3, h4⟩ := hlev l (by simp)
      obtain ⟨w1, w2, w3⟩ := hw l.q (hq l (by simp))
      unfold stackRelev
      rw [List.map_cons, List.map_cons, List.foldl_cons, F64.zero_add' w1 w2]
      unfold sumRelev
      refine foldl_add_le (fun l' hl' => ?_) ?_ h4 ?_ h3
      · obtain ⟨a, b, c, _⟩ := hlev l' (List.mem_cons_of_mem _ hl')
        exact ⟨a, b, c⟩
      · intro hn
        rw [hn] at h1
        exact h1
      · intro hn
        rw [hn] at w1
        exact w1
  by_cases hp : Penalized ls
  · rw [h.penalty hp]
    exact (sub_le_self hsum.1 hsum.2.1 (by decide +kernel) (by decide +kernel)).trans hsum.2.2
  · rw [h.plain hp]
    exact hsum.2.2

/-! ## A full queue never gets worse -/

theorem cpqPush_floor {α K : Type} [LinearOrder K] {key : α → K} (H : Heap key) {n : ℕ}
    {q : List α} {e : α} {k : K} (hn : n ≤ q.length) (hk : ∀ a ∈ q, k ≤ key a) :
    n ≤ (cpqPush H n q e).1.length ∧ ∀ a ∈ (cpqPush H n q e).1, k ≤ key a := by
  unfold cpqPush
  rw [if_pos hn]
  cases hp : H.peekMin q with
  | none => exact ⟨hn, hk⟩
  | some m =>
    simp only
    split_ifs with hlt
    · have hperm := H.replaceMin_perm q m e hp
      refine ⟨?_, ?_⟩
      · have := hperm.length_eq
        simp only [List.length_cons] at this
        simp only
        omega
      · intro a ha
        rcases List.mem_cons.1 (hperm.mem_iff.1 (List.mem_cons_of_mem _ ha)) with rfl | ha
        · exact (hk m (H.peekMin_mem q m hp)).trans hlt.le
        · exact hk a ha
    · exact ⟨hn, hk⟩

theorem cpqPushAll_floor {α K : Type} [LinearOrder K] {key : α → K} (H : Heap key) {n : ℕ}
    {q es : List α} {k : K} (hn : n ≤ q.length) (hk : ∀ a ∈ q, k ≤ key a) :
    n ≤ (cpqPushAll H n q es).length ∧ ∀ a ∈ cpqPushAll H n q es, k ≤ key a := by
  unfold cpqPushAll
  induction es generalizing q with
  | nil => exact ⟨hn, hk⟩
  | cons e t ih =>
    rw [List.foldl_cons]
    obtain ⟨h1, h2⟩ := cpqPush_floor H (e := e) hn hk
    exact ih h1 h2

theorem absorb_floor {env : TreeEnv} {results : List Fetched}
    {s : List Context × HMap ℕ (List MatchEntry)} {k : F64 ×ₗ F64 ×ₗ ℕᵒᵈ ×ₗ ℕ ×ₗ ℕ ×ₗ ℕ}
    (hn : maxResults ≤ s.1.length) (hk : ∀ c ∈ s.1, k ≤ c.sortKey) :
    maxResults ≤ (results.foldl (absorbFetched env) s).1.length ∧
      ∀ c ∈ (results.foldl (absorbFetched env) s).1, k ≤ c.sortKey := by
  induction results generalizing s with
  | nil => exact ⟨hn, hk⟩
  | cons r t ih =>
    rw [List.foldl_cons]
    have : maxResults ≤ (absorbFetched env s r).1.length ∧
        ∀ c ∈ (absorbFetched env s r).1, k ≤ c.sortKey := by
      cases r with
      | single cs => exact cpqPushAll_floor _ hn hk
      | multi id data => exact ⟨hn, hk⟩
    exact ih this.1 this.2

/-- What is known after a stop. -/
def StopInfo (s : TreeState) : Prop :=
  ∀ st, s.stopped = some st → maxResults ≤ s.contexts.length ∧
    ∀ st' ∈ st :: s.left, ∀ c ∈ s.contexts, st'.node.maxRelev ≤ c.relev

theorem fle_le {a b : F64} (h : F64.fle a b = true) : a ≤ b := by unfold F64.fle at h; exact (of_decide_eq_true h).2.2

theorem Round.stopInfo {env : TreeEnv} {t : StackTree} {opts : MatchOpts} {s s' : TreeState}
    {taken : List Step} {keys : List FetchKey} {results : List Fetched}
    {expanded : List (List Context × List Step)}
    (h : Round env t opts s s' taken keys results expanded) : StopInfo s' := by
  intro st hst
  obtain ⟨h1, h2⟩ := h.stopped st hst
  unfold cannotBeat at h1
  rw [Bool.and_eq_true, decide_eq_true_eq] at h1
  obtain ⟨hlen, hmin⟩ := h1
  cases hp : env.contexts.peekMin s.contexts with
  | none => rw [hp] at hmin; cases hmin
  | some worst =>
    rw [hp] at hmin
    have hfloor := absorb_floor (env := env) (results := results) (s := (s.contexts, s.cache))
      (k := worst.sortKey) hlen (env.contexts.peekMin_le _ _ hp)
    have hfloor := cpqPushAll_floor env.contexts (es := expanded.flatMap Prod.fst) hfloor.1
      hfloor.2
    rw [← h.contexts] at hfloor
    refine ⟨hfloor.1, ?_⟩
    intro st' hst' c hc
    have hc' : worst.relev ≤ c.relev := by
      rcases bestFirst_of_sortKey (hfloor.2 c hc) with hb | hb
      · exact hb.le
      · exact hb.1.le
    refine le_trans ?_ ((fle_le hmin).trans hc')
    rcases List.mem_cons.1 hst' with rfl | hst'
    · exact le_rfl
    · have := h2 st' hst'
      unfold Step.key at this
      rw [Prod.Lex.toLex_le_toLex] at this
      rcases this with h | h
      · exact h.le
      · exact h.1.le

end Carmen

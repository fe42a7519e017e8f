import Verif.Lemmas.TreeBound

/-!
# What a full list of results pushes out
-/

namespace Carmen
open Spec

/-- What is pushed out of a bounded queue, and that nothing in it is worse. -/
theorem cpqPushAll_gone {α K : Type} [LinearOrder K] {key : α → K} (H : Heap key) (n : ℕ)
    (es q : List α) : ∃ gone, (cpqPushAll H n q es ++ gone).Perm (es ++ q) ∧
      ∀ x ∈ gone, n ≤ (cpqPushAll H n q es).length ∧ ∀ r ∈ cpqPushAll H n q es, key x ≤ key r := by
  induction es generalizing q with
  | nil => exact ⟨[], by simp [cpqPushAll], by simp⟩
  | cons e t ih =>
    have hstep : ∃ out, ((cpqPush H n q e).1 ++ out).Perm (e :: q) ∧
        ∀ x ∈ out, n ≤ (cpqPush H n q e).1.length ∧ ∀ r ∈ (cpqPush H n q e).1, key x ≤ key r := by
      unfold cpqPush
      by_cases hn : n ≤ q.length
      · rw [if_pos hn]
        cases hp : H.peekMin q with
        | none =>
          have hq := (H.peekMin_none q).1 hp
          refine ⟨[e], by simp [hq], ?_⟩
          intro x _
          refine ⟨hn, ?_⟩
          intro r hr
          simp only [hq] at hr
          cases hr
        | some m =>
          simp only
          split_ifs with hlt
          · have hperm := H.replaceMin_perm q m e hp
            refine ⟨[m], (List.perm_append_comm).trans hperm, ?_⟩
            intro x hx
            rw [List.mem_singleton.1 hx]
            refine ⟨?_, ?_⟩
            · have := hperm.length_eq
              simp only [List.length_cons] at this
              simp only
              omega
            · intro r hr
              rcases List.mem_cons.1 (hperm.mem_iff.1 (List.mem_cons_of_mem _ hr)) with rfl | hr
              · exact hlt.le
              · exact H.peekMin_le q m hp r hr
          · refine ⟨[e], List.perm_append_comm, ?_⟩
            intro x hx
            rw [List.mem_singleton.1 hx]
            exact ⟨hn, fun r hr => (not_lt.1 hlt).trans (H.peekMin_le q m hp r hr)⟩
      · rw [if_neg hn]
        exact ⟨[], by simpa using H.push_perm q e, by simp⟩
    obtain ⟨out, h1, h2⟩ := hstep
    obtain ⟨gone, h3, h4⟩ := ih (cpqPush H n q e).1
    have hall : cpqPushAll H n q (e :: t) = cpqPushAll H n (cpqPush H n q e).1 t := rfl
    rw [hall]
    refine ⟨gone ++ out, ?_, ?_⟩
    · rw [← List.append_assoc]
      refine (h3.append_right out).trans ?_
      rw [List.append_assoc, List.cons_append]
      exact (h1.append_left t).trans List.perm_middle
    · intro x hx
      rcases List.mem_append.1 hx with hx | hx
      · exact h4 x hx
      · obtain ⟨g1, g2⟩ := h2 x hx
        exact cpqPushAll_floor H g1 g2

/-- The list of results is full, with nothing that ranks below the key. -/
def Outdone (k : F64 ×ₗ F64 ×ₗ ℕᵒᵈ ×ₗ ℕ ×ₗ ℕ ×ₗ ℕ) (cs : List Context) : Prop :=
  maxResults ≤ cs.length ∧ ∀ r ∈ cs, k ≤ r.sortKey

theorem Outdone.relev {c : Context} {cs : List Context} (h : Outdone c.sortKey cs) :
    ∀ r ∈ cs, c.relev ≤ r.relev := by
  intro r hr
  rcases bestFirst_of_sortKey (h.2 r hr) with hb | hb
  · exact hb.le
  · exact hb.1.le

/-- These are the best of those. -/
def Retained (cs all : List Context) : Prop :=
  ∃ gone, (cs ++ gone).Perm all ∧ ∀ x ∈ gone, Outdone x.sortKey cs

theorem Retained.mem {cs all : List Context} (h : Retained cs all) {x : Context} (hx : x ∈ all) :
    x ∈ cs ∨ Outdone x.sortKey cs := by
  obtain ⟨gone, h1, h2⟩ := h
  exact (List.mem_append.1 (h1.mem_iff.2 hx)).imp id (h2 x)

open Classical in
theorem Retained.subperm {cs all part : List Context} (h : Retained cs all) (hp : part.Subperm all)
    {k : F64 ×ₗ F64 ×ₗ ℕᵒᵈ ×ₗ ℕ ×ₗ ℕ ×ₗ ℕ} (hk : ∀ r ∈ part, k ≤ r.sortKey) :
    part.Subperm cs ∨ Outdone k cs := by
  by_cases hout : Outdone k cs
  · exact Or.inr hout
  left
  obtain ⟨gone, h1, h2⟩ := h
  rw [List.subperm_ext_iff]
  intro x hx
  have h3 := List.subperm_ext_iff.1 (hp.trans h1.symm.subperm) x hx
  rw [List.count_append] at h3
  have h4 : gone.count x = 0 := List.count_eq_zero.2 fun hg =>
    hout ⟨(h2 x hg).1, fun r hr => (hk x hx).trans ((h2 x hg).2 r hr)⟩
  omega

theorem absorb_pushed {env : TreeEnv} (rs : List Fetched)
    (p : List Context × HMap ℕ (List MatchEntry)) :
    ∃ pushed, (rs.foldl (absorbFetched env) p).1 = cpqPushAll env.contexts maxResults p.1 pushed ∧
      ∀ cs, .single cs ∈ rs → cs.Sublist pushed := by
  induction rs generalizing p with
  | nil => exact ⟨[], rfl, by simp⟩
  | cons r rs ih =>
    obtain ⟨pushed, h1, h2⟩ := ih (absorbFetched env p r)
    rw [List.foldl_cons, h1]
    cases r with
    | multi id data =>
      refine ⟨pushed, rfl, fun cs hcs => h2 cs ?_⟩
      rcases List.mem_cons.1 hcs with h | h
      · cases h
      · exact h
    | single cs₀ =>
      refine ⟨cs₀ ++ pushed, ?_, fun cs hcs => ?_⟩
      · show cpqPushAll _ _ (cpqPushAll _ _ p.1 cs₀) pushed = _
        unfold cpqPushAll
        rw [List.foldl_append]
      · rcases List.mem_cons.1 hcs with h | h
        · cases h
          exact List.sublist_append_left _ _
        · exact (h2 cs h).trans (List.sublist_append_right _ _)

/-- What a round has to choose from, and that it keeps the best. -/
theorem Round.kept {env : TreeEnv} {t : StackTree} {opts : MatchOpts} {s s' : TreeState}
    {taken : List Step} {keys : List FetchKey} {results : List Fetched}
    {expanded : List (List Context × List Step)}
    (h : Round env t opts s s' taken keys results expanded) :
    ∃ all, Retained s'.contexts all ∧ s.contexts.Subperm all ∧
      (expanded.flatMap Prod.fst).Subperm all ∧
      ∀ cs, .single cs ∈ results → cs.Subperm all := by
  obtain ⟨pushed, h1, h2⟩ := absorb_pushed (env := env) results (s.contexts, s.cache)
  have hcs : s'.contexts = cpqPushAll env.contexts maxResults s.contexts
      (pushed ++ expanded.flatMap Prod.fst) := by
    rw [h.contexts, h1]
    unfold cpqPushAll
    rw [List.foldl_append]
  obtain ⟨gone, h3, h4⟩ := cpqPushAll_gone env.contexts maxResults
    (pushed ++ expanded.flatMap Prod.fst) s.contexts
  rw [← hcs] at h3 h4
  refine ⟨_, ⟨gone, h3, h4⟩, (List.sublist_append_right _ _).subperm, ?_, ?_⟩
  · exact ((List.sublist_append_right _ _).trans (List.sublist_append_left _ _)).subperm
  · intro cs hc
    exact ((h2 cs hc).trans ((List.sublist_append_left _ _).trans
      (List.sublist_append_left _ _))).subperm

theorem Outdone.round {env : TreeEnv} {t : StackTree} {opts : MatchOpts} {s s' : TreeState}
    {taken : List Step} {keys : List FetchKey} {results : List Fetched}
    {expanded : List (List Context × List Step)}
    {k : F64 ×ₗ F64 ×ₗ ℕᵒᵈ ×ₗ ℕ ×ₗ ℕ ×ₗ ℕ} (hk : Outdone k s.contexts)
    (h : Round env t opts s s' taken keys results expanded) : Outdone k s'.contexts := by
  have h1 := absorb_floor (env := env) (results := results) (s := (s.contexts, s.cache)) hk.1 hk.2
  have h2 := cpqPushAll_floor env.contexts (es := expanded.flatMap Prod.fst) h1.1 h1.2
  rw [← h.contexts] at h2
  exact h2

theorem three_quarters_mono {a b : F64} (h : a ≤ b) : lit 0.75 * a ≤ lit 0.75 * b := by
  have hl : lit 0.75 = .fin (3 / 4) := by decide +kernel
  rw [hl]
  cases b with
  | nan => exact F64.le_nan _
  | inf s =>
    cases s with
    | true =>
      have : a = .inf true := le_antisymm h (F64.ninf_le a)
      rw [this]
    | false =>
      cases a with
      | nan => exact absurd h (by decide)
      | inf s =>
        cases s with
        | true => decide +kernel
        | false => exact le_rfl
      | fin p =>
        have h1 : F64.fin (3 / 4) * .inf false = .inf false := by decide +kernel
        rw [h1]
        exact F64.le_inf_of_ne_nan (F64.ofRat_ne_nan _)
  | fin q =>
    cases a with
    | nan => exact absurd h (by simp [F64.le_def, F64.rank, Prod.Lex.le_iff])
    | inf s =>
      cases s with
      | true =>
        have h1 : F64.fin (3 / 4) * .inf true = .inf true := by decide +kernel
        rw [h1]
        exact F64.ninf_le _
      | false => exact absurd h (by simp [F64.le_def, F64.rank, Prod.Lex.le_iff])
    | fin p =>
      have hpq : p ≤ q := by simpa using h
      exact F64.ofRat_mono (mul_le_mul_of_nonneg_left hpq (by norm_num))

/-- A bound by three quarters of something stays one. -/
theorem three_quarters_round {env : TreeEnv} {t : StackTree} {opts : MatchOpts} {s s' : TreeState}
    {taken : List Step} {keys : List FetchKey} {results : List Fetched}
    {expanded : List (List Context × List Step)}
    (h : Round env t opts s s' taken keys results expanded) {x : F64}
    (hx : ∃ b ∈ s.contexts, x ≤ lit 0.75 * b.relev) : ∃ b ∈ s'.contexts, x ≤ lit 0.75 * b.relev := by
  obtain ⟨all, hk, hold, _⟩ := h.kept
  obtain ⟨b, hb, hle⟩ := hx
  rcases hk.mem (hold.subset hb) with hb' | hb'
  · exact ⟨b, hb', hle⟩
  · obtain ⟨r, hr⟩ : ∃ r, r ∈ s'.contexts := List.exists_mem_of_ne_nil _ (by
      intro h0
      have := hb'.1
      rw [h0] at this
      simp [maxResults, maxContexts] at this)
    exact ⟨r, hr, hle.trans (three_quarters_mono (hb'.relev r hr))⟩

end Carmen
